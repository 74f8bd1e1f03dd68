import Verif.Model.ActorBackends
import Verif.Lemmas.Backends
import Verif.Lemmas.PympManager

/-! Helper lemmas for programs with actors (C131). -/
namespace Verif.ActorBackends
open Verif.Spec.Backends (Arg Res Funs argsOf)
open Verif.Backends
open Verif.Spec.Actors

theorem length_resOf {n : Nat} {x : Except Nat (List Nat)} (h : ∀ l, x = .ok l → l.length = n) : (resOf n x).length = n := by
  cases x with
  | ok l => simp [resOf, h l rfl]
  | error e => simp [resOf]

theorem results_res {n : Nat} {x : Except Nat (List Nat)} (h : ∀ l, x = .ok l → l.length = n) (outs : List Nat) (ho : outs.length = n) :
    Spec.Pymp.results outs (objRet n x) = outs.zip ((resOf n x).map toOut) := by
  rw [results_zip ⟨fun _ => n, fun _ _ => x, fun _ _ l hl => h l hl⟩ 0 [] outs ho]
  cases x <;> rfl

theorem produced_res {n : Nat} {x : Except Nat (List Nat)} (h : ∀ l, x = .ok l → l.length = n) :
    Pyseq.produced n (objRet n x) = ((resOf n x).map toObj, true) := by
  have := produced_results ⟨fun _ => n, fun _ _ => x, fun _ _ l hl => h l hl⟩ 0 []
  rw [this]
  cases x <;> rfl

/-- How many results a call gives. -/
def count (F : Code) : Call → Nat
  | .put _ => 1
  | .call f _ => F.rets f
  | .make _ => 0
  | .method _ m _ => F.mrets m

theorem bind_fits (F : Code) (env : List Res) (f : Nat) (args : List Arg) :
    ∀ l, (argsOf env args).bind (F.code f) = .ok l → l.length = F.rets f := by
  intro l hl
  cases hx : argsOf env args with
  | error e => rw [hx] at hl; cases hl
  | ok vs => rw [hx] at hl; exact F.fits f vs l hl

theorem formed_cons {F : Code} {s : Local} {c : Call} {cs : List Call} (h : Formed F s.env.length s.objs.length (c :: cs)) :
    (∀ i, Arg.ref i ∈ c.args → i < s.env.length) ∧ (∀ a m args, c = .method a m args → a < s.objs.length) ∧
    (direct F s c).env.length = s.env.length + count F c ∧
    Formed F (direct F s c).env.length (direct F s c).objs.length cs := by
  cases c with
  | put n => exact ⟨by simp [Call.args], by simp, by simp [direct, count], by simpa [direct, Formed] using h⟩
  | call f args =>
    have hl : (direct F s (.call f args)).env.length = s.env.length + F.rets f := by
      simp [direct, length_resOf (bind_fits F s.env f args)]
    exact ⟨h.1, by simp, hl, by rw [hl]; exact h.2⟩
  | make c => exact ⟨by simp [Call.args], by simp, by simp [direct, count], by simpa [direct, Formed] using h⟩
  | method a m args =>
    obtain ⟨h1, h2, h3⟩ := h
    obtain ⟨⟨c, st⟩, hx⟩ : ∃ x, s.objs[a]? = some x := ⟨_, List.getElem?_eq_getElem h1⟩
    have hl : (direct F s (.method a m args)).env.length = s.env.length + F.mrets m ∧
        (direct F s (.method a m args)).objs.length = s.objs.length := by
      simp only [direct, hx]
      split
      · simp
      · rename_i vs _
        simp [length_resOf (F.mfits c m st vs)]
    exact ⟨h2, by rintro a' m' args' h; cases h; exact h1, hl.1, by rw [hl.1, hl.2]; exact h3⟩

/-- The classes of the objects after a call. -/
def classesNext (cl : List Nat) : Call → List Nat
  | .make c => cl ++ [c]
  | _ => cl

/-- The classes of the objects of a program. -/
def classesOf (cl : List Nat) (P : List Call) : List Nat := P.foldl classesNext cl

theorem classes_direct (F : Code) (c : Call) (s : Local) : (direct F s c).objs.map (·.1) = classesNext (s.objs.map (·.1)) c := by
  cases c with
  | put n => rfl
  | call f args => rfl
  | make c => simp [direct, classesNext]
  | method a m args =>
    simp only [direct, classesNext]
    split
    · rfl
    · rename_i c st hx
      split
      · rfl
      · rw [List.map_set]
        apply List.ext_getElem?
        intro j
        rw [List.getElem?_set]
        have hal := (List.getElem?_eq_some_iff.1 hx).1
        split
        · rename_i e; subst e; simp only [List.getElem?_map, hx, List.length_map, hal, if_true, Option.map_some]
        · rfl

theorem classes_directly (F : Code) (P : List Call) : ∀ s : Local, (directly F s P).objs.map (·.1) = classesOf (s.objs.map (·.1)) P := by
  induction P with
  | nil => intro s; rfl
  | cons c P ih =>
    intro s
    show (directly F (direct F s c) P).objs.map (·.1) = classesOf (classesNext (s.objs.map (·.1)) c) P
    rw [ih, classes_direct]

/-! ## Multiprocessing -/

/-- The ghost record of the calls of a program; `cl` are the classes of the objects made before. -/
def itemsOf (F : Code) : Nat → Nat → List Nat → List Call → List Pymp.Item
  | _, _, _, [] => []
  | k, next, cl, .put n :: cs => .put next (.data n) :: itemsOf F (k + 1) (next + 1) cl cs
  | k, next, cl, .call f args :: cs =>
    .task ⟨k, .fn f, args.map objArg, (List.range (F.rets f)).map (next + ·)⟩ :: itemsOf F (k + 1) (next + F.rets f) cl cs
  | k, next, cl, .make c :: cs => itemsOf F k next (cl ++ [c]) cs
  | k, next, cl, .method a m args :: cs =>
    .task ⟨k, .method a (cl.getD a 0) m, args.map objArg, (List.range (F.mrets m)).map (next + ·)⟩ ::
      itemsOf F (k + 1) (next + F.mrets m) cl cs

/-- The meaning of the calls so far agrees with the calls made directly. -/
structure Agree (F : Code) (s : Local) (E : Spec.Pymp.Env) : Prop where
  val : ∀ (i : Nat), E.val i = (s.env[i]?).map toOut
  hist : ∀ (a : Nat) (c st : Nat), s.objs[a]? = some (c, st) → stateAfter F c (E.hist a) = st
  new : ∀ (a : Nat), s.objs.length ≤ a → E.hist a = []

theorem zip_raised (outs : List Nat) (e n : Nat) (h : outs.length = n) :
    (outs.map fun o => (o, Spec.Pymp.Outcome.raised e)) = outs.zip ((List.replicate n (Res.raised e)).map toOut) := by
  subst h
  induction outs with
  | nil => rfl
  | cons o outs ih => simp only [List.length_cons, List.replicate_succ, List.map_cons, List.zip_cons_cons, toOut, ← ih]

theorem stateAfter_append (F : Code) (c : Nat) (hist : List (Nat × List Pymp.Val)) (m : Nat) (vs : List Nat) :
    stateAfter F c (hist ++ [(m, vs.map .data)]) = (F.mcode c m (stateAfter F c hist) vs).2 := by
  have e : (objNum ∘ Pymp.Val.data) = id := rfl
  simp [stateAfter, e]

/-- The outcomes after one more call. -/
theorem val_grow {s : Local} {val : Nat → Option Spec.Pymp.Outcome} (h : ∀ (i : Nat), val i = (s.env[i]?).map toOut) {n : Nat} {rs : List Res}
    (hl : rs.length = n) {l : List (Nat × Spec.Pymp.Outcome)} (hq : l = ((List.range n).map (s.env.length + ·)).zip (rs.map toOut)) :
    ∀ (i : Nat), Spec.Pymp.add val l i = ((s.env ++ rs)[i]?).map toOut := by
  subst hl; subst hq
  exact add_results h rs

theorem agree_items (F : Code) (cs : List Call) : ∀ {s : Local} {E : Spec.Pymp.Env} (k : Nat), Agree F s E →
    Formed F s.env.length s.objs.length cs →
    Agree F (directly F s cs) ((itemsOf F k s.env.length (s.objs.map (·.1)) cs).foldl (Spec.Pymp.eval (actorWorld F)) E) := by
  induction cs with
  | nil => intro s E k h _; exact h
  | cons c cs ih =>
    intro s E k h hf
    obtain ⟨ha, ho, hl, hf'⟩ := formed_cons hf
    have e0 : (objNum ∘ Pymp.Val.data) = id := rfl
    cases c with
    | put n =>
      have := ih (s := direct F s (.put n)) (E := Spec.Pymp.eval (actorWorld F) E (.put s.env.length (.data n))) (k + 1)
        ⟨fun i => by simpa [Spec.Pymp.eval, toOut, direct] using add_results h.val [.value n] i, h.hist, h.new⟩ hf'
      rw [hl] at this
      exact this
    | call f args =>
      have := ih (s := direct F s (.call f args)) (E := Spec.Pymp.eval (actorWorld F) E
          (.task ⟨k, .fn f, args.map objArg, (List.range (F.rets f)).map (s.env.length + ·)⟩)) (k + 1) ?_ hf'
      · rw [hl] at this
        exact this
      · simp only [Spec.Pymp.eval, resolve_args h.val args ha]
        cases hx : argsOf s.env args with
        | error e =>
          refine ⟨val_grow h.val (n := F.rets f) (by simp [hx, Except.bind, resOf]) ?_, h.hist, h.new⟩
          simpa [hx, Except.bind, resOf] using zip_raised ((List.range (F.rets f)).map (s.env.length + ·)) e (F.rets f) (by simp)
        | ok vs =>
          refine ⟨val_grow h.val (n := F.rets f) (length_resOf (bind_fits F s.env f args)) ?_, h.hist, h.new⟩
          simp only [Spec.Pymp.apply, actorWorld, List.map_map, e0, List.map_id]
          rw [results_res (F.fits f vs) _ (by simp), hx]
          rfl
    | make c =>
      have := ih (s := direct F s (.make c)) k ⟨h.val, fun a c' st hx => ?_, fun a hx => h.new a (by simp [direct] at hx; omega)⟩ hf'
      · simp only [direct, List.map_append, List.map_cons, List.map_nil] at this
        exact this
      · simp only [direct] at hx
        by_cases e : a < s.objs.length
        · rw [List.getElem?_append_left e] at hx
          exact h.hist a c' st hx
        · rw [List.getElem?_append_right (by omega)] at hx
          have e1 : a - s.objs.length = 0 := by
            by_cases e2 : a - s.objs.length = 0
            · exact e2
            · rw [List.getElem?_eq_none (by simp; omega)] at hx; cases hx
          rw [e1] at hx
          simp only [List.getElem?_cons_zero, Option.some.injEq, Prod.mk.injEq] at hx
          rw [h.new a (by omega), ← hx.1, ← hx.2]
          rfl
    | method a m args =>
      have hal := ho a m args rfl
      obtain ⟨⟨c, st⟩, hx⟩ : ∃ x, s.objs[a]? = some x := ⟨_, List.getElem?_eq_getElem hal⟩
      have hcl : (s.objs.map (·.1)).getD a 0 = c := by simp [List.getD_eq_getElem?_getD, hx]
      have := ih (s := direct F s (.method a m args)) (E := Spec.Pymp.eval (actorWorld F) E
          (.task ⟨k, .method a c m, args.map objArg, (List.range (F.mrets m)).map (s.env.length + ·)⟩)) (k + 1) ?_ hf'
      · have hm : (direct F s (.method a m args)).objs.map (·.1) = s.objs.map (·.1) := by
          simp only [direct, hx]
          split
          · rfl
          · rw [List.map_set]
            apply List.ext_getElem?
            intro j
            rw [List.getElem?_set]
            split
            · rename_i e; subst e; simp only [List.getElem?_map, hx, List.length_map, hal, if_true, Option.map_some]
            · rfl
        rw [hl, hm] at this
        simpa only [itemsOf, hcl, count, List.foldl_cons, directly] using this
      · simp only [Spec.Pymp.eval, resolve_args h.val args ha]
        simp only [direct, hx]
        cases hv : argsOf s.env args with
        | error e =>
          refine ⟨val_grow h.val (n := F.mrets m) (by simp) ?_, h.hist, h.new⟩
          exact zip_raised _ e _ (by simp)
        | ok vs =>
          have hst := h.hist a c st hx
          refine ⟨val_grow h.val (n := F.mrets m) (length_resOf (F.mfits c m st vs)) ?_, ?_, ?_⟩
          · simp only [Spec.Pymp.apply, actorWorld, List.map_map, e0, List.map_id, hst]
            exact results_res (F.mfits c m st vs) _ (by simp)
          · intro b c' st' hb
            simp only [Except.map, Spec.Pymp.remember]
            simp only at hb
            rw [List.getElem?_set] at hb
            by_cases e : b = a
            · subst e
              rw [if_pos rfl, if_pos hal, Option.some.injEq, Prod.mk.injEq] at hb
              rw [if_pos rfl, stateAfter_append, ← hb.1, hst, hb.2]
            · rw [if_neg (fun e' => e e'.symm)] at hb
              rw [if_neg e]
              exact h.hist b c' st' hb
          · intro b hb
            simp only [List.length_set] at hb
            simp only [Except.map, Spec.Pymp.remember]
            rw [if_neg (by omega)]
            exact h.new b hb

theorem plainWorld (F : Code) : Spec.Pymp.PlainWorld (actorWorld F) := by
  have key : ∀ n x, Spec.Pymp.PlainRet (objRet n x) := by
    intro n x v items h
    cases x with
    | error e => cases h
    | ok l =>
      simp only [objRet] at h
      split at h
      · cases h; exact ⟨rfl, fun l hl => by cases hl⟩
      · cases h
        refine ⟨rfl, fun l hl u hu => ?_⟩
        cases hl
        obtain ⟨x, -, rfl⟩ := List.mem_map.1 hu
        rfl
  exact ⟨fun f vs => key _ _, fun cls hist m vs => key _ _, fun c => rfl⟩

/-- One flag is set for each object. -/
structure PoolOk (n k : Nat) (p : PympPool.Pool) : Prop where
  len : p.grabbed.length = n
  next : p.nextId < n
  cnt : p.grabbed.count true = k

theorem pool_free {n k : Nat} {p : PympPool.Pool} (h : PoolOk n k p) (hk : k < n) : ∃ i < n, p.grabbed[i]? = some false := by
  apply Classical.byContradiction
  intro hn
  have : ∀ b ∈ p.grabbed, b = true := by
    intro b hb
    obtain ⟨i, hi⟩ := List.mem_iff_getElem?.1 hb
    cases b with
    | true => rfl
    | false => exact absurd ⟨i, by rw [← h.len]; exact (List.getElem?_eq_some_iff.1 hi).1, hi⟩ hn
  have h1 := List.count_eq_length.2 fun b hb => (this b hb).symm
  have := h.cnt
  have := h.len
  omega

theorem pool_submit {n k : Nat} {p : PympPool.Pool} (h : PoolOk n k p) (hk : k < n) :
    ∃ w q, p.submit = (some w, q) ∧ PoolOk n k q := by
  obtain ⟨h1, h2, h3, h4⟩ := PympPool.submit_spec p (Or.inl (by rw [h.len]; exact h.next))
  cases hs : p.submit.1 with
  | none =>
    obtain ⟨i, hi, hf⟩ := pool_free h hk
    have := h4 hs i (by rw [h.len]; exact hi)
    rw [hf] at this; cases this
  | some w =>
    refine ⟨w, p.submit.2, by rw [← hs], by rw [h1, h.len], ?_, by rw [h1, h.cnt]⟩
    have := h.len; have := h.next
    omega

theorem pool_grab {n k : Nat} {p : PympPool.Pool} (h : PoolOk n k p) (hk : k < n) :
    ∃ w q, p.grab = (some w, q) ∧ PoolOk n (k + 1) q := by
  cases hs : PympPool.firstFree p.grabbed with
  | none =>
    obtain ⟨i, hi, hf⟩ := pool_free h hk
    have := PympPool.firstFree_none hs i (by rw [h.len]; exact hi)
    rw [hf] at this; cases this
  | some w =>
    have hw := PympPool.firstFree_some hs
    refine ⟨w, { p with grabbed := p.grabbed.set w true }, by simp only [PympPool.Pool.grab, hs], by simp [h.len], h.next, ?_⟩
    obtain ⟨hlt, hge⟩ := List.getElem?_eq_some_iff.1 hw
    simp only [List.count_set hlt, h.cnt, hge]
    simp

/-- The actors are those of the program, all alive. -/
def ActorsAre (s : Pymp.State) (cl : List Nat) : Prop := s.actors.map (fun x => (x.cls, x.live)) = cl.map fun c => (c, true)

theorem actorsAre_get {s : Pymp.State} {cl : List Nat} (h : ActorsAre s cl) {a : Nat} {x : Pymp.Actor} (hx : s.actors[a]? = some x) :
    cl.getD a 0 = x.cls := by
  have := congrArg (fun l => l[a]?) h
  simp only [List.getElem?_map, hx, Option.map_some] at this
  cases hc : cl[a]? with
  | none => rw [hc] at this; cases this
  | some c =>
    rw [hc] at this
    simp only [Option.map_some, Option.some.injEq, Prod.mk.injEq] at this
    rw [List.getD_eq_getElem?_getD, hc, this.1]
    rfl

theorem pymp_items (F : Code) (n : Nat) (acts : List Pymp.Act) : ∀ {s s' : Pymp.State} {cl : List Nat} {cs : List Call},
    PoolOk n cl.length s.pool → ActorsAre s cl → Room n cl.length cs →
    acts.filter pympMain = cs.map (pympAct F) → Pymp.run (actorWorld F) s acts = some s' →
    s'.items = s.items ++ itemsOf F s.items.length s.next cl cs ∧ ActorsAre s' (classesOf cl cs) := by
  induction acts with
  | nil =>
    intro s s' cl cs _ hA _ hc hr
    simp only [Pymp.run, Option.some.injEq] at hr
    subst hr
    cases cs with
    | nil => exact ⟨by simp [itemsOf], hA⟩
    | cons c cs => simp at hc
  | cons a acts ih =>
    intro s s' cl cs hp hA hroom hc hr
    simp only [Pymp.run] at hr
    split at hr
    · cases hr
    · rename_i s1 h1
      have side : pympMain a = false → s1.pool = s.pool ∧ s1.items = s.items ∧ s1.next = s.next ∧ ActorsAre s1 cl →
          s'.items = s.items ++ itemsOf F s.items.length s.next cl cs ∧ ActorsAre s' (classesOf cl cs) := by
        rintro hm ⟨e1, e2, e3, e4⟩
        rw [List.filter_cons_of_neg (by simp [hm])] at hc
        have := ih (s := s1) (by rw [e1]; exact hp) e4 hroom hc hr
        rw [e2, e3] at this
        exact this
      have main : pympMain a = true → ∃ c cs', cs = c :: cs' ∧ a = pympAct F c ∧ acts.filter pympMain = cs'.map (pympAct F) := by
        intro hm
        rw [List.filter_cons_of_pos hm] at hc
        cases cs with
        | nil => cases hc
        | cons c cs' =>
          simp only [List.map_cons, List.cons.injEq] at hc
          exact ⟨c, cs', rfl, hc.1, hc.2⟩
      cases a with
      | put v =>
        obtain ⟨c, cs', rfl, ha, hc'⟩ := main rfl
        cases c with
        | put n =>
          cases ha
          simp only [Pymp.step, Option.some.injEq] at h1
          subst h1
          have := ih (cl := cl) (by exact hp) (by exact hA) (by exact hroom) hc' hr
          exact ⟨by simpa [itemsOf] using this.1, this.2⟩
        | _ => cases ha
      | submit f args n =>
        obtain ⟨c, cs', rfl, ha, hc'⟩ := main rfl
        cases c with
        | call f' args' =>
          cases ha
          obtain ⟨w, q, hs, hq⟩ := pool_submit hp hroom.1
          simp only [Pymp.step] at h1
          split at h1
          · simp only [hs, Option.some.injEq] at h1
            subst h1
            have := ih (cl := cl) (by exact hq) (by exact hA) hroom.2 hc' hr
            exact ⟨by simpa [itemsOf, Pymp.newIds] using this.1, this.2⟩
          · cases h1
        | _ => cases ha
      | create cls =>
        obtain ⟨c, cs', rfl, ha, hc'⟩ := main rfl
        cases c with
        | make c =>
          cases ha
          obtain ⟨w, q, hs, hq⟩ := pool_grab hp hroom.1
          simp only [Pymp.step, hs, Option.some.injEq] at h1
          subst h1
          have := ih (cl := cl ++ [cls]) (by simpa using hq) (by simp only [ActorsAre] at hA ⊢; simp [hA]) (by simpa using hroom.2) hc' hr
          exact ⟨by simpa [itemsOf] using this.1, this.2⟩
        | _ => cases ha
      | method x m args n =>
        obtain ⟨c, cs', rfl, ha, hc'⟩ := main rfl
        cases c with
        | method x' m' args' =>
          cases ha
          simp only [Pymp.step] at h1
          split at h1
          · cases h1
          · rename_i y hy
            split at h1
            · simp only [Option.some.injEq] at h1
              subst h1
              have := ih (cl := cl) (by exact hp) (by exact hA) (by exact hroom) hc' hr
              exact ⟨by simpa only [itemsOf, actorsAre_get hA hy, Pymp.newIds, List.length_append, List.length_singleton, List.append_assoc,
                List.singleton_append] using this.1, this.2⟩
            · cases h1
        | _ => cases ha
      | drop x =>
        obtain ⟨c, cs', rfl, ha, hc'⟩ := main rfl
        cases c <;> cases ha
      | take w =>
        refine side rfl ?_
        simp only [Pymp.step] at h1
        split at h1
        · cases h1; exact ⟨rfl, rfl, rfl, hA⟩
        · cases h1
      | fetch w =>
        refine side rfl ?_
        simp only [Pymp.step] at h1
        split at h1
        · cases h1; exact ⟨rfl, rfl, rfl, hA⟩
        · cases h1; exact ⟨rfl, rfl, rfl, hA⟩
        · split at h1
          · split at h1
            · cases h1; exact ⟨rfl, rfl, rfl, hA⟩
            · cases h1; exact ⟨rfl, rfl, rfl, hA⟩
          · cases h1
        · cases h1
      | finish w =>
        refine side rfl ?_
        simp only [Pymp.step] at h1
        split at h1
        · rename_i t vs _
          have hrec : (Pymp.record s.actors vs t.target).map (fun x => (x.cls, x.live)) = cl.map fun c => (c, true) := by
            rw [← hA]
            cases t.target with
            | fn f => rfl
            | method a c m =>
              simp only [Pymp.record]
              apply List.ext_getElem?
              intro j
              simp only [List.getElem?_map, List.getElem?_modify]
              cases s.actors[j]? with
              | none => rfl
              | some y => simp only [Option.map_some]; split <;> rfl
          split at h1
          · cases h1; exact ⟨rfl, rfl, rfl, hrec⟩
          · split at h1
            · cases h1; exact ⟨rfl, rfl, rfl, hrec⟩
            · cases h1; exact ⟨rfl, rfl, rfl, hrec⟩
        · cases h1
      | write w =>
        refine side rfl ?_
        simp only [Pymp.step] at h1
        split at h1
        · cases h1; exact ⟨rfl, rfl, rfl, hA⟩
        · cases h1; exact ⟨rfl, rfl, rfl, hA⟩
        · cases h1

/-! ## Sequential backend -/

/-- The store holds the results, the program has all references, and the objects are in their states. -/
structure SeqAgree (F : Code) (u : Local) (s : Pyseq.State) : Prop where
  ok : SeqOk u.env s
  objs : s.actors.map (fun x => (x.1, stateAfter F x.1 x.2)) = u.objs

/-- A submission whose arguments are fine: the results are stored, and the call is recorded. -/
theorem seq_submit {F : Code} {u : Local} {s : Pyseq.State} (h : SeqAgree F u s) (target : Pymp.Target) (args : List Arg)
    (ha : ∀ i, Arg.ref i ∈ args → i < u.env.length) (n : Nat) (vs : List Nat) (hv : argsOf u.env args = .ok vs) (x : Except Nat (List Nat))
    (hx : ∀ l, x = .ok l → l.length = n)
    (hcall : Pymp.callTarget (actorWorld F) (Pyseq.histOf s.actors target) (vs.map Pymp.Val.data) target = objRet n x) :
    ∃ s', Pyseq.submit (actorWorld F) s target (args.map objArg) n = some (s', .refs ((List.range n).map (u.env.length + ·))) ∧
      SeqOk (u.env ++ resOf n x) s' ∧ s'.actors = Pyseq.record s.actors (vs.map Pymp.Val.data) target := by
  have hsl : s.store.length = u.env.length := by rw [h.ok.store]; simp
  simp only [Pyseq.submit, seq_args h.ok args ha, hv, Except.map, hcall, produced_res hx, if_true, hsl]
  refine ⟨_, rfl, ?_, rfl⟩
  have hl := length_resOf hx
  refine ⟨by simp [h.ok.store], fun i hi => ?_, fun y hy i hi => ?_⟩
  · simp only [List.length_append, hl] at hi
    by_cases e : i < u.env.length
    · obtain ⟨y, hy, hyi⟩ := h.ok.refs i e
      exact ⟨y, List.mem_append_left _ hy, hyi⟩
    · refine ⟨_, List.mem_append_right _ (List.mem_singleton.2 rfl), ?_⟩
      simp only [Pymp.Item.refs, List.mem_map, List.mem_range]
      exact ⟨i - u.env.length, by omega, by omega⟩
  · simp only [List.length_append, hl]
    rcases List.mem_append.1 hy with hy | hy
    · have := h.ok.known y hy i hi; omega
    · rw [List.mem_singleton.1 hy] at hi
      simp only [Pymp.Item.refs, List.mem_map, List.mem_range] at hi
      obtain ⟨k, hk1, rfl⟩ := hi
      omega

theorem seq_step {F : Code} {u : Local} {s : Pyseq.State} (h : SeqAgree F u s) (c : Call) (ha : ∀ i, Arg.ref i ∈ c.args → i < u.env.length)
    (hm : ∀ a m args, c = .method a m args → a < u.objs.length) :
    ∃ s' o, Pyseq.step (actorWorld F) s (pyseqOp F c) = some (s', o) ∧
      (((∀ i e, Arg.ref i ∈ c.args → u.env[i]? ≠ some (.raised e)) ∧ (∀ e, o ≠ .raised e) ∧ SeqAgree F (direct F u c) s') ∨
       (¬ (∀ i e, Arg.ref i ∈ c.args → u.env[i]? ≠ some (.raised e)) ∧ ∃ e, o = .raised (.user e))) := by
  have hsl : s.store.length = u.env.length := by rw [h.ok.store]; simp
  have e0 : (objNum ∘ Pymp.Val.data) = id := rfl
  have herr := argsOf_error c.args ha
  have bad : ∀ e, argsOf u.env c.args = .error e → ¬ (∀ i e, Arg.ref i ∈ c.args → u.env[i]? ≠ some (.raised e)) := by
    intro e he hn
    obtain ⟨i, e', h1, h2⟩ := herr.1 ⟨e, he⟩
    exact hn i e' h1 h2
  have good : ∀ vs, argsOf u.env c.args = .ok vs → ∀ i e, Arg.ref i ∈ c.args → u.env[i]? ≠ some (.raised e) := by
    intro vs hv i e h1 h2
    obtain ⟨e', he'⟩ := herr.2 ⟨i, e, h1, h2⟩
    rw [hv] at he'; cases he'
  cases c with
  | put n =>
    refine ⟨_, _, rfl, Or.inl ⟨by simp [Call.args], by simp, ?_, h.objs⟩⟩
    refine ⟨by simp [h.ok.store, direct, toObj], fun i hi => ?_, fun x hx i hi => ?_⟩
    · simp only [direct, List.length_append, List.length_singleton] at hi
      by_cases e : i < u.env.length
      · obtain ⟨x, hx, hxi⟩ := h.ok.refs i e
        exact ⟨x, List.mem_append_left _ hx, hxi⟩
      · exact ⟨_, List.mem_append_right _ (List.mem_singleton.2 rfl), by simp [Pymp.Item.refs, hsl]; omega⟩
    · simp only [direct, List.length_append, List.length_singleton]
      rcases List.mem_append.1 hx with hx | hx
      · have := h.ok.known x hx i hi; omega
      · rw [List.mem_singleton.1 hx] at hi
        simp only [Pymp.Item.refs, List.mem_singleton, hsl] at hi
        omega
  | call f args =>
    have hk := (seq_known h.ok args).2 ha
    simp only [pyseqOp, Pyseq.step, if_pos hk]
    cases hv : argsOf u.env args with
    | error e =>
      refine ⟨s, .raised (.user e), ?_, Or.inr ⟨bad e hv, e, rfl⟩⟩
      simp only [Pyseq.submit, seq_args h.ok args ha, hv, Except.map]
    | ok vs =>
      obtain ⟨s', h1, h2, h3⟩ := seq_submit h (.fn f) args ha (F.rets f) vs hv (F.code f vs) (F.fits f vs)
        (by simp only [Pymp.callTarget, actorWorld, List.map_map, e0, List.map_id])
      refine ⟨s', _, h1, Or.inl ⟨good vs hv, by simp, ?_, ?_⟩⟩
      · simpa only [direct, hv, Except.bind] using h2
      · rw [h3]; exact h.objs
  | make c =>
    refine ⟨_, _, rfl, Or.inl ⟨by simp [Call.args], by simp, ⟨h.ok.store, h.ok.refs, h.ok.known⟩, ?_⟩⟩
    simp [direct, ← h.objs, stateAfter]
  | method a m args =>
    have hk := (seq_known h.ok args).2 ha
    have hal := hm a m args rfl
    obtain ⟨⟨c, st⟩, hx⟩ : ∃ x, u.objs[a]? = some x := ⟨_, List.getElem?_eq_getElem hal⟩
    obtain ⟨⟨c', hist⟩, hy, hyx⟩ : ∃ y, s.actors[a]? = some y ∧ (y.1, stateAfter F y.1 y.2) = (c, st) := by
      rw [← h.objs, List.getElem?_map, Option.map_eq_some_iff] at hx
      exact hx
    simp only [Prod.mk.injEq] at hyx
    obtain ⟨rfl, hst⟩ := hyx
    simp only [pyseqOp, Pyseq.step, hy, if_pos hk]
    cases hv : argsOf u.env args with
    | error e =>
      refine ⟨s, .raised (.user e), ?_, Or.inr ⟨bad e hv, e, rfl⟩⟩
      simp only [Pyseq.submit, seq_args h.ok args ha, hv, Except.map]
    | ok vs =>
      obtain ⟨s', h1, h2, h3⟩ := seq_submit h (.method a c' m) args ha (F.mrets m) vs hv (F.mcode c' m st vs).1 (F.mfits c' m st vs)
        (by simp only [Pymp.callTarget, actorWorld, Pyseq.histOf, hy, Option.map_some, Option.getD_some, hst, List.map_map, e0, List.map_id])
      refine ⟨s', _, h1, Or.inl ⟨good vs hv, by simp, ?_, ?_⟩⟩
      · simpa only [direct, hx, hv] using h2
      · rw [h3]
        simp only [direct, hx, hv, Pyseq.record]
        apply List.ext_getElem?
        intro j
        rw [List.getElem?_set, ← h.objs]
        simp only [List.getElem?_map, List.getElem?_modify]
        by_cases e : a = j
        · subst e
          have hal' : a < (s.actors.map fun x => (x.1, stateAfter F x.1 x.2)).length := by rw [h.objs]; exact hal
          rw [if_pos rfl, if_pos hal', hy]
          simp only [if_true]
          show some (c', stateAfter F c' (hist ++ [(m, vs.map Pymp.Val.data)])) = _
          rw [stateAfter_append, hst]
        · rw [if_neg e]
          cases s.actors[j]? with
          | none => rfl
          | some y => simp [e]

theorem seq_run (F : Code) (cs : List Call) : ∀ {u : Local} {s : Pyseq.State}, SeqAgree F u s → Formed F u.env.length u.objs.length cs → ArgsFine F u cs →
    ∃ s' os, Pyseq.run (actorWorld F) s (cs.map (pyseqOp F)) = some (s', os) ∧ (∀ e, Pyseq.Out.raised e ∉ os) ∧
      SeqAgree F (directly F u cs) s' := by
  induction cs with
  | nil => intro u s h _ _; exact ⟨s, [], rfl, by simp, h⟩
  | cons c cs ih =>
    intro u s h hf ha
    obtain ⟨hr, ho, -, hf'⟩ := formed_cons hf
    obtain ⟨s1, o, h1, h2 | h2⟩ := seq_step h c hr ho
    · obtain ⟨-, hne, hok⟩ := h2
      obtain ⟨s', os, hr, hn, hs⟩ := ih hok hf' ha.2
      refine ⟨s', o :: os, by simp only [List.map_cons, Pyseq.run, h1, hr], fun e he => ?_, hs⟩
      rcases List.mem_cons.1 he with he | he
      · exact hne e he.symm
      · exact hn e he
    · exact absurd ha.1 h2.1

theorem seq_fine (F : Code) (cs : List Call) : ∀ {u : Local} {s s' : Pyseq.State} {os : List Pyseq.Out}, SeqAgree F u s →
    Formed F u.env.length u.objs.length cs → Pyseq.run (actorWorld F) s (cs.map (pyseqOp F)) = some (s', os) →
    (∀ e, Pyseq.Out.raised e ∉ os) → ArgsFine F u cs := by
  induction cs with
  | nil => intro u s s' os _ _ _ _; exact trivial
  | cons c cs ih =>
    intro u s s' os h hf hr hn
    obtain ⟨hre, ho, -, hf'⟩ := formed_cons hf
    obtain ⟨s1, o, h1, h2⟩ := seq_step h c hre ho
    simp only [List.map_cons, Pyseq.run, h1] at hr
    split at hr
    · cases hr
    · rename_i s2 os' hr2
      cases hr
      rcases h2 with ⟨hfine, -, hok⟩ | ⟨-, e, hoe⟩
      · exact ⟨hfine, ih hok hf' hr2 fun e he => hn e (List.mem_cons_of_mem _ he)⟩
      · exact absurd (hoe ▸ List.mem_cons_self ..) (hn (.user e))

end Verif.ActorBackends
