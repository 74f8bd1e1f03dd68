import Verif.Model.Backends
import Verif.Props.Valued
import Verif.Props.Pymp

/-! Lemmas about one program on three backends. -/
namespace Verif.Backends
open Verif.Spec.Backends

theorem length_resultsOf (F : Funs) (env : List Res) (f : Nat) (args : List Arg) : (resultsOf F env (.call f args)).length = F.rets f := by
  simp only [resultsOf]
  cases h : argsOf env args with
  | error e => simp [Except.bind]
  | ok vs =>
    simp only [Except.bind]
    cases h2 : F.code f vs with
    | error e => simp
    | ok l => simp [F.fits f vs l h2]

/-! ## MPI -/

/-- A result as an object of the MPI backend. -/
def toVal : Res → Valued.Val
  | .value n => .ok n
  | .raised e => .exc e

theorem mpiRes_toVal (x : Res) : mpiRes (toVal x) = x := by cases x <;> rfl

/-- The values after one more call. -/
def mpiGrow (W : Valued.World) (menv : List Valued.Val) : Valued.Val ⊕ (List Valued.Arg × Nat) → List Valued.Val
  | .inl v => menv ++ [v]
  | .inr (args, n) => menv ++ Spec.Valued.directly W (args.map (Spec.Valued.argVal menv)) n

theorem values_fold (W : Valued.World) (ops : List Valued.Op) : ∀ menv, Spec.Valued.values W menv ops = (Props.callsMade ops).foldl (mpiGrow W) menv := by
  induction ops with
  | nil => intro menv; rfl
  | cons op ops ih =>
    intro menv
    rw [Valued.values_cons, ih]
    cases op <;> rfl

/-- References of the results and their values. -/
structure MpiOk (env : List Res) (fs : List (Nat × Nat)) (next : Nat) (pos : List Nat) (menv : List Valued.Val) : Prop where
  next : menv.length = next
  funs : ∀ f r, fs.lookup f = some r → menv[r]? = some (.ok f)
  length : pos.length = env.length
  vals : ∀ (i : Nat) (x : Res), env[i]? = some x → menv[pos.getD i 0]? = some (toVal x)

theorem mpi_args {env : List Res} {fs : List (Nat × Nat)} {next : Nat} {pos : List Nat} {menv : List Valued.Val}
    (h : MpiOk env fs next pos menv) (args : List Arg) (ha : ∀ i, Arg.ref i ∈ args → i < env.length) :
    (∀ vs, argsOf env args = .ok vs →
      ((args.map (mpiArg pos)).map (Spec.Valued.argVal menv)).findSome? Spec.Valued.excOf = none ∧
      ((args.map (mpiArg pos)).map (Spec.Valued.argVal menv)).map Spec.Valued.okOf = vs) ∧
    ∀ e, argsOf env args = .error e → ((args.map (mpiArg pos)).map (Spec.Valued.argVal menv)).findSome? Spec.Valued.excOf = some e := by
  induction args with
  | nil =>
    refine ⟨fun vs hv => ?_, fun e he => by simp [argsOf] at he⟩
    simp only [argsOf, Except.ok.injEq] at hv
    subst hv
    exact ⟨rfl, rfl⟩
  | cons a args ih =>
    have ih' := ih fun i hi => ha i (List.mem_cons_of_mem _ hi)
    have step : ∀ (n : Nat), Spec.Valued.argVal menv (mpiArg pos a) = .ok n → argsOf env (a :: args) = (argsOf env args).map (n :: ·) →
        (∀ vs, argsOf env (a :: args) = .ok vs →
          (((a :: args).map (mpiArg pos)).map (Spec.Valued.argVal menv)).findSome? Spec.Valued.excOf = none ∧
          (((a :: args).map (mpiArg pos)).map (Spec.Valued.argVal menv)).map Spec.Valued.okOf = vs) ∧
        ∀ e, argsOf env (a :: args) = .error e →
          (((a :: args).map (mpiArg pos)).map (Spec.Valued.argVal menv)).findSome? Spec.Valued.excOf = some e := by
      intro n hn hv
      rw [hv]
      simp only [List.map_cons, hn, List.findSome?_cons, Spec.Valued.excOf, Spec.Valued.okOf]
      cases hx : argsOf env args with
      | error e => exact ⟨fun vs hv => by simp [Except.map] at hv, fun e' he => by simp only [Except.map, Except.error.injEq] at he; exact ih'.2 e' (by rw [hx, he])⟩
      | ok us =>
        refine ⟨fun vs hv => ?_, fun e he => by simp [Except.map] at he⟩
        simp only [Except.map, Except.ok.injEq] at hv
        obtain ⟨h1, h2⟩ := ih'.1 us hx
        exact ⟨h1, by rw [h2, hv]⟩
    cases a with
    | num n => exact step n rfl rfl
    | ref i =>
      have hi := ha i (List.mem_cons_self ..)
      obtain ⟨x, hx⟩ : ∃ x, env[i]? = some x := ⟨_, List.getElem?_eq_getElem hi⟩
      have hv := h.vals i x hx
      have hav : Spec.Valued.argVal menv (mpiArg pos (.ref i)) = toVal x := by
        simp only [Spec.Valued.argVal, mpiArg, List.getD_eq_getElem?_getD (l := menv), hv, Option.getD_some]
      cases x with
      | value n => exact step n hav (by simp only [argsOf, hx])
      | raised e =>
        simp only [argsOf, hx, List.map_cons, hav, toVal, List.findSome?_cons, Spec.Valued.excOf]
        exact ⟨fun vs hv => (by cases hv), fun e' he => by cases he; rfl⟩

theorem mpi_directly {F : Funs} {env : List Res} {fs : List (Nat × Nat)} {next : Nat} {pos : List Nat} {menv : List Valued.Val}
    (h : MpiOk env fs next pos menv) (f r : Nat) (hf : menv[r]? = some (.ok f)) (args : List Arg) (ha : ∀ i, Arg.ref i ∈ args → i < env.length) :
    Spec.Valued.directly (mpiWorld F) ((Valued.Arg.ref r :: args.map (mpiArg pos)).map (Spec.Valued.argVal menv)) (F.rets f) =
      (resultsOf F env (.call f args)).map toVal := by
  obtain ⟨h1, h2⟩ := mpi_args h args ha
  have e0 : Spec.Valued.argVal menv (.ref r) = .ok f := by
    simp [Spec.Valued.argVal, List.getD_eq_getElem?_getD, hf]
  simp only [Spec.Valued.directly, List.map_cons, e0, List.findSome?_cons, Spec.Valued.excOf, Spec.Valued.okOf, resultsOf]
  cases hx : argsOf env args with
  | error e =>
    rw [h2 e hx]
    simp [Except.bind, toVal]
  | ok vs =>
    rw [(h1 vs hx).1, (h1 vs hx).2]
    simp only [mpiWorld, Except.bind]
    cases hc : F.code f vs with
    | error e => simp [Except.map, toVal]
    | ok l =>
      have hl := F.fits f vs l hc
      simp only [Except.map, ← hl, List.map_map]
      apply List.ext_getElem
      · simp
      · intro k hk1 hk2
        simp only [List.length_map, List.length_range] at hk1
        simp [toVal, hk1]

theorem mpiOk_grow {env : List Res} {fs : List (Nat × Nat)} {next : Nat} {pos : List Nat} {menv : List Valued.Val}
    (h : MpiOk env fs next pos menv) (rs : List Res) :
    MpiOk (env ++ rs) fs (next + rs.length) (pos ++ (List.range rs.length).map (next + ·)) (menv ++ rs.map toVal) := by
  refine ⟨by simp [h.next], fun f r hr => ?_, by simp [h.length], fun i x hx => ?_⟩
  · exact List.getElem?_append_left (by have := (List.getElem?_eq_some_iff.1 (h.funs f r hr)).1; exact this) ▸ h.funs f r hr
  · by_cases hi : i < env.length
    · rw [List.getElem?_append_left hi] at hx
      have := h.vals i x hx
      have e : (pos ++ (List.range rs.length).map (next + ·)).getD i 0 = pos.getD i 0 := by
        simp only [List.getD_eq_getElem?_getD]
        rw [List.getElem?_append_left (by rw [h.length]; exact hi)]
      rw [e, List.getElem?_append_left (List.getElem?_eq_some_iff.1 this).1]
      exact this
    · rw [List.getElem?_append_right (by omega)] at hx
      have hk := (List.getElem?_eq_some_iff.1 hx).1
      have e : (pos ++ (List.range rs.length).map (next + ·)).getD i 0 = next + (i - env.length) := by
        simp only [List.getD_eq_getElem?_getD]
        rw [List.getElem?_append_right (by rw [h.length]; omega), h.length, List.getElem?_map, List.getElem?_range hk, Option.map_some,
          Option.getD_some]
      rw [e, List.getElem?_append_right (by rw [h.next]; omega), h.next, Nat.add_sub_cancel_left, List.getElem?_map, hx]
      rfl

theorem mpiOk_fun {env : List Res} {fs : List (Nat × Nat)} {next : Nat} {pos : List Nat} {menv : List Valued.Val}
    (h : MpiOk env fs next pos menv) (f : Nat) : MpiOk env ((f, next) :: fs) (next + 1) pos (menv ++ [.ok f]) := by
  refine ⟨by simp [h.next], fun g r hr => ?_, h.length, fun i x hx => ?_⟩
  · simp only [List.lookup_cons] at hr
    split at hr
    · rename_i e
      have : g = f := by simpa using e
      subst this
      cases hr
      rw [List.getElem?_append_right (by rw [h.next]; exact Nat.le_refl _), h.next, Nat.sub_self]
      rfl
    · have := h.funs g r hr
      rw [List.getElem?_append_left (List.getElem?_eq_some_iff.1 this).1]
      exact this
  · have := h.vals i x hx
    rw [List.getElem?_append_left (List.getElem?_eq_some_iff.1 this).1]
    exact this

theorem mpi_run (F : Funs) (cs : List Call) : ∀ {env : List Res} {fs : List (Nat × Nat)} {next : Nat} {pos : List Nat} {menv : List Valued.Val},
    MpiOk env fs next pos menv → Formed F env.length cs →
    (mpiPos F fs next pos cs).length = (direct F env cs).length ∧
    ∀ (i : Nat) (x : Res), (direct F env cs)[i]? = some x →
      ((mpiCalls F fs next pos cs).foldl (mpiGrow (mpiWorld F)) menv)[(mpiPos F fs next pos cs).getD i 0]? = some (toVal x) := by
  induction cs with
  | nil => intro env fs next pos menv h _; exact ⟨h.length, h.vals⟩
  | cons c cs ih =>
    intro env fs next pos menv h hf
    cases c with
    | put n =>
      have hg := mpiOk_grow h [.value n]
      have := ih hg (by simpa [Formed] using hf)
      simpa [mpiPos, mpiCalls, direct, resultsOf, mpiGrow, toVal] using this
    | call f args =>
      obtain ⟨ha, hf⟩ := hf
      have hl := length_resultsOf F env f args
      simp only [mpiPos, mpiCalls, direct]
      cases hk : fs.lookup f with
      | some r =>
        have hg := mpiOk_grow h (resultsOf F env (.call f args))
        rw [hl] at hg
        have := ih hg (by rw [List.length_append, hl]; exact hf)
        rw [← mpi_directly h f r (h.funs f r hk) args ha] at this
        exact this
      | none =>
        have h' := mpiOk_fun h f
        have hg := mpiOk_grow h' (resultsOf F env (.call f args))
        rw [hl] at hg
        have := ih hg (by rw [List.length_append, hl]; exact hf)
        rw [← mpi_directly h' f next (h'.funs f next (by simp)) args ha] at this
        exact this

/-! ## Multiprocessing -/

/-- A result as the meaning of a program of the multiprocessing backend gives it. -/
def toOut : Res → Spec.Pymp.Outcome
  | .value n => .value (.data n)
  | .raised e => .raised e

/-- The ghost record of the calls of a program. -/
def itemsOf (F : Funs) : Nat → Nat → List Call → List Pymp.Item
  | _, _, [] => []
  | k, next, .put n :: cs => .put next (.data n) :: itemsOf F (k + 1) (next + 1) cs
  | k, next, .call f args :: cs =>
    .task ⟨k, .fn f, args.map objArg, (List.range (F.rets f)).map (next + ·)⟩ :: itemsOf F (k + 1) (next + F.rets f) cs

theorem resolve_args {env : List Res} {val : Nat → Option Spec.Pymp.Outcome} (h : ∀ (i : Nat), val i = (env[i]?).map toOut) (args : List Arg)
    (ha : ∀ i, Arg.ref i ∈ args → i < env.length) :
    Spec.Pymp.resolve val (args.map objArg) = some ((argsOf env args).map fun vs => vs.map Pymp.Val.data) := by
  induction args with
  | nil => rfl
  | cons a args ih =>
    have ih' := ih fun i hi => ha i (List.mem_cons_of_mem _ hi)
    cases a with
    | num n =>
      simp only [List.map_cons, objArg, Spec.Pymp.resolve, ih', argsOf]
      cases argsOf env args <;> rfl
    | ref i =>
      have hi := ha i (List.mem_cons_self ..)
      obtain ⟨x, hx⟩ : ∃ x, env[i]? = some x := ⟨_, List.getElem?_eq_getElem hi⟩
      simp only [List.map_cons, objArg, Spec.Pymp.resolve, h i, hx, Option.map_some, argsOf]
      cases x with
      | raised e => rfl
      | value n =>
        simp only [toOut, ih']
        cases argsOf env args <;> rfl

theorem add_results {env : List Res} {val : Nat → Option Spec.Pymp.Outcome} (h : ∀ (i : Nat), val i = (env[i]?).map toOut) (rs : List Res) :
    ∀ (i : Nat), Spec.Pymp.add val (((List.range rs.length).map (env.length + ·)).zip (rs.map toOut)) i = ((env ++ rs)[i]?).map toOut := by
  have key : ∀ (rs : List Res) (b i : Nat), ((((List.range rs.length).map (b + ·)).zip (rs.map toOut)).find? fun p => p.1 == i).map (·.2) =
      if i < b then none else (rs[i - b]?).map toOut := by
    intro rs
    induction rs with
    | nil => intro b i; simp
    | cons x rs ih =>
      intro b i
      have e : (List.range (x :: rs).length).map (b + ·) = b :: (List.range rs.length).map ((b + 1) + ·) := by
        rw [List.length_cons, List.range_succ_eq_map, List.map_cons, List.map_map]
        congr 1
        exact List.map_congr_left fun y _ => by simp; omega
      rw [e, List.map_cons, List.zip_cons_cons, List.find?_cons]
      by_cases hb : b = i
      · subst hb; simp
      · have : (b == i) = false := by simpa using hb
        simp only [this]
        rw [ih (b + 1) i]
        by_cases h1 : i < b
        · rw [if_pos h1, if_pos (by omega)]
        · rw [if_neg h1, if_neg (by omega)]
          have : i - b = (i - (b + 1)) + 1 := by omega
          rw [this, List.getElem?_cons_succ]
  intro i
  simp only [Spec.Pymp.add]
  rw [key, h i]
  by_cases hi : i < env.length
  · rw [if_pos hi, List.getElem?_append_left hi]; rfl
  · rw [if_neg hi, List.getElem?_append_right (by omega), List.getElem?_eq_none (l := env) (by omega)]
    cases rs[i - env.length]? <;> rfl

theorem results_zip (F : Funs) (f : Nat) (vs : List Nat) (outs : List Nat) (ho : outs.length = F.rets f) :
    Spec.Pymp.results outs (objRet (F.rets f) (F.code f vs)) =
      outs.zip ((match F.code f vs with | .ok l => l.map Res.value | .error e => List.replicate (F.rets f) (.raised e)).map toOut) := by
  cases hc : F.code f vs with
  | error e =>
    simp only [objRet, Spec.Pymp.results, List.map_replicate, toOut, ← ho]
    clear ho
    induction outs with
    | nil => rfl
    | cons o outs ih => simp [List.replicate_succ, ih]
  | ok l =>
    have hl := F.fits f vs l hc
    simp only [objRet]
    by_cases h1 : F.rets f = 1
    · rw [if_pos h1]
      obtain ⟨o, rfl⟩ := List.length_eq_one_iff.1 (ho.trans h1)
      obtain ⟨x, rfl⟩ := List.length_eq_one_iff.1 (hl.trans h1)
      rfl
    · rw [if_neg h1]
      have e : ((l.map Res.value).map toOut) = (l.map Pymp.Val.data).map Spec.Pymp.Outcome.value := by
        simp [List.map_map, Function.comp_def, toOut]
      rw [e]
      match outs, ho with
      | [], _ => rfl
      | [o], ho => exact absurd ho.symm h1
      | o :: o' :: outs, _ => rfl

theorem meaning_items (F : Funs) (cs : List Call) : ∀ {env : List Res} {E : Spec.Pymp.Env} (k : Nat), (∀ (i : Nat), E.val i = (env[i]?).map toOut) →
    Formed F env.length cs → ∀ (i : Nat), ((itemsOf F k env.length cs).foldl (Spec.Pymp.eval (objWorld F)) E).val i =
      ((direct F env cs)[i]?).map toOut := by
  induction cs with
  | nil => intro env E k h _ i; exact h i
  | cons c cs ih =>
    intro env E k h hf i
    cases c with
    | put n =>
      have := ih (env := env ++ [.value n]) (E := Spec.Pymp.eval (objWorld F) E (.put env.length (.data n))) (k + 1)
        (fun i => by simpa [Spec.Pymp.eval, toOut] using add_results h [.value n] i) (by simpa [Formed] using hf) i
      simpa [itemsOf, direct, resultsOf] using this
    | call f args =>
      obtain ⟨ha, hf⟩ := hf
      have hl := length_resultsOf F env f args
      have hstep : ∀ (i : Nat), (Spec.Pymp.eval (objWorld F) E
          (.task ⟨k, .fn f, args.map objArg, (List.range (F.rets f)).map (env.length + ·)⟩)).val i =
          ((env ++ resultsOf F env (.call f args))[i]?).map toOut := by
        have hadd := add_results h (resultsOf F env (.call f args))
        rw [hl] at hadd
        simp only [Spec.Pymp.eval, resolve_args h args ha]
        cases hx : argsOf env args with
        | error e =>
          intro i
          rw [← hadd i]
          simp only [Except.map, resultsOf, hx, Except.bind, List.map_replicate, toOut]
          congr 1
          generalize hr : (List.range (F.rets f)).map (env.length + ·) = outs
          have ho : outs.length = F.rets f := by rw [← hr]; simp
          rw [← ho]
          clear hr ho
          induction outs with
          | nil => rfl
          | cons o outs ih => simp [List.replicate_succ, ih]
        | ok vs =>
          intro i
          rw [← hadd i]
          simp only [Except.map, Spec.Pymp.apply, objWorld, List.map_map]
          have e : (objNum ∘ Pymp.Val.data) = id := rfl
          rw [e, List.map_id, results_zip F f vs _ (by simp)]
          simp only [resultsOf, hx, Except.bind]
          cases F.code f vs <;> rfl
      have := ih (env := env ++ resultsOf F env (.call f args)) (k + 1) hstep (by rw [List.length_append, hl]; exact hf) i
      rw [List.length_append, hl] at this
      exact this

theorem submit_free (p : PympPool.Pool) (hg : ∀ b ∈ p.grabbed, b = false) (hn : p.nextId < p.grabbed.length) :
    ∃ w q, p.submit = (some w, q) ∧ (∀ b ∈ q.grabbed, b = false) ∧ q.nextId < q.grabbed.length := by
  have hgt : p.grabbed[p.nextId]? = some false := by
    rw [List.getElem?_eq_getElem hn, hg _ (List.getElem_mem hn)]
  obtain ⟨g, nx⟩ := p
  simp only at hg hn hgt
  cases hl : g.length with
  | zero => omega
  | succ m =>
    refine ⟨nx, ⟨g, if nx + 1 = g.length then 0 else nx + 1⟩, ?_, hg, ?_⟩
    · simp only [PympPool.Pool.submit, hl, PympPool.Pool.submitLoop, PympPool.Pool.next, hgt]
    · simp only; split <;> omega

theorem plainWorld (F : Funs) : Spec.Pymp.PlainWorld (objWorld F) := by
  refine ⟨fun f vs v items h => ?_, fun cls hist m vs v items h => (by cases h), fun c => rfl⟩
  simp only [objWorld, objRet] at h
  split at h
  · cases h
  · split at h
    · cases h; exact ⟨rfl, fun l hl => by cases hl⟩
    · cases h
      refine ⟨rfl, fun l hl u hu => ?_⟩
      cases hl
      obtain ⟨x, -, rfl⟩ := List.mem_map.1 hu
      rfl

theorem pymp_items (F : Funs) (acts : List Pymp.Act) : ∀ {s s' : Pymp.State} {cs : List Call}, (∀ b ∈ s.pool.grabbed, b = false) →
    s.pool.nextId < s.pool.grabbed.length → acts.filter pympMain = cs.map (pympAct F) → Pymp.run (objWorld F) s acts = some s' →
    s'.items = s.items ++ itemsOf F s.items.length s.next cs := by
  induction acts with
  | nil =>
    intro s s' cs _ _ hc hr
    simp only [Pymp.run, Option.some.injEq] at hr
    subst hr
    cases cs with
    | nil => simp [itemsOf]
    | cons c cs => simp at hc
  | cons a acts ih =>
    intro s s' cs hg hn hc hr
    simp only [Pymp.run] at hr
    split at hr
    · cases hr
    · rename_i s1 h1
      have side : pympMain a = false → s1.pool = s.pool ∧ s1.items = s.items ∧ s1.next = s.next →
          s'.items = s.items ++ itemsOf F s.items.length s.next cs := by
        rintro hm ⟨e1, e2, e3⟩
        rw [List.filter_cons_of_neg (by simp [hm])] at hc
        have := ih (s := s1) (by rw [e1]; exact hg) (by rw [e1]; exact hn) hc hr
        rw [e2, e3] at this
        exact this
      have main : pympMain a = true → ∃ c cs', cs = c :: cs' ∧ a = pympAct F c ∧ acts.filter pympMain = cs'.map (pympAct F) := by
        intro hm
        rw [List.filter_cons_of_pos hm] at hc
        cases cs with
        | nil => cases hc
        | cons c cs' =>
          simp only [List.map_cons, List.cons.injEq] at hc
          exact ⟨c, cs', rfl, hc.1, hc.2⟩
      cases a with
      | put v =>
        obtain ⟨c, cs', rfl, ha, hc'⟩ := main rfl
        cases c with
        | call f args => cases ha
        | put n =>
          cases ha
          simp only [Pymp.step, Option.some.injEq] at h1
          subst h1
          have := ih (by exact hg) (by exact hn) hc' hr
          simpa [itemsOf] using this
      | submit f args n =>
        obtain ⟨c, cs', rfl, ha, hc'⟩ := main rfl
        cases c with
        | put n => cases ha
        | call f' args' =>
          cases ha
          obtain ⟨w, q, hs, hq1, hq2⟩ := submit_free s.pool hg hn
          simp only [Pymp.step] at h1
          split at h1
          · simp only [hs, Option.some.injEq] at h1
            subst h1
            have := ih (by exact hq1) (by exact hq2) hc' hr
            simpa [itemsOf, Pymp.newIds] using this
          · cases h1
      | create cls =>
        obtain ⟨c, cs', rfl, ha, hc'⟩ := main rfl
        cases c <;> cases ha
      | method x m args n =>
        obtain ⟨c, cs', rfl, ha, hc'⟩ := main rfl
        cases c <;> cases ha
      | drop x =>
        obtain ⟨c, cs', rfl, ha, hc'⟩ := main rfl
        cases c <;> cases ha
      | take w =>
        refine side rfl ?_
        simp only [Pymp.step] at h1
        split at h1
        · cases h1; exact ⟨rfl, rfl, rfl⟩
        · cases h1
      | fetch w =>
        refine side rfl ?_
        simp only [Pymp.step] at h1
        split at h1
        · cases h1; exact ⟨rfl, rfl, rfl⟩
        · cases h1; exact ⟨rfl, rfl, rfl⟩
        · split at h1
          · split at h1
            · cases h1; exact ⟨rfl, rfl, rfl⟩
            · cases h1; exact ⟨rfl, rfl, rfl⟩
          · cases h1
        · cases h1
      | finish w =>
        refine side rfl ?_
        simp only [Pymp.step] at h1
        split at h1
        · split at h1
          · cases h1; exact ⟨rfl, rfl, rfl⟩
          · split at h1
            · cases h1; exact ⟨rfl, rfl, rfl⟩
            · cases h1; exact ⟨rfl, rfl, rfl⟩
        · cases h1
      | write w =>
        refine side rfl ?_
        simp only [Pymp.step] at h1
        split at h1
        · cases h1; exact ⟨rfl, rfl, rfl⟩
        · cases h1; exact ⟨rfl, rfl, rfl⟩
        · cases h1

/-! ## Sequential backend -/

/-- A result as the sequential backend stores it. -/
def toObj : Res → Pymp.Val
  | .value n => .data n
  | .raised e => .exc e

theorem objRes_check (x : Res) : objRes (Pyseq.check (toObj x)) = x := by cases x <;> rfl

/-- The store holds the results, and the program has all references. -/
structure SeqOk (env : List Res) (s : Pyseq.State) : Prop where
  store : s.store = env.map toObj
  refs : ∀ i, i < env.length → ∃ x ∈ s.items, i ∈ x.refs
  known : ∀ x ∈ s.items, ∀ i ∈ x.refs, i < env.length

theorem seq_known {env : List Res} {s : Pyseq.State} (h : SeqOk env s) (args : List Arg) :
    Pyseq.known s (args.map objArg) = true ↔ ∀ i, Arg.ref i ∈ args → i < env.length := by
  simp only [Pyseq.known, List.all_eq_true]
  constructor
  · intro hk i hi
    have := hk (.ref i) (List.mem_map.2 ⟨.ref i, hi, rfl⟩)
    simp only [List.any_eq_true, List.contains_iff_mem] at this
    obtain ⟨x, hx, hix⟩ := this
    exact h.known x hx i hix
  · intro hk a ha
    obtain ⟨b, hb, rfl⟩ := List.mem_map.1 ha
    cases b with
    | num n => rfl
    | ref i =>
      obtain ⟨x, hx, hix⟩ := h.refs i (hk i hb)
      simp only [objArg, List.any_eq_true, List.contains_iff_mem]
      exact ⟨x, hx, hix⟩

theorem seq_args {env : List Res} {s : Pyseq.State} (h : SeqOk env s) (args : List Arg) (ha : ∀ i, Arg.ref i ∈ args → i < env.length) :
    Pyseq.materialize s (args.map objArg) = some ((argsOf env args).map fun vs => vs.map Pymp.Val.data) := by
  induction args with
  | nil => rfl
  | cons a args ih =>
    have ih' := ih fun i hi => ha i (List.mem_cons_of_mem _ hi)
    cases a with
    | num n =>
      simp only [List.map_cons, objArg, Pyseq.materialize, ih', argsOf]
      cases argsOf env args <;> rfl
    | ref i =>
      have hi := ha i (List.mem_cons_self ..)
      obtain ⟨x, hx⟩ : ∃ x, env[i]? = some x := ⟨_, List.getElem?_eq_getElem hi⟩
      simp only [List.map_cons, objArg, Pyseq.materialize, Pyseq.getOne, h.store, List.getElem?_map, hx, Option.map_some, argsOf]
      cases x with
      | raised e => rfl
      | value n =>
        simp only [toObj, Pyseq.check, ih']
        cases argsOf env args <;> rfl

theorem argsOf_error {env : List Res} (args : List Arg) (ha : ∀ i, Arg.ref i ∈ args → i < env.length) :
    (∃ e, argsOf env args = .error e) ↔ ∃ i e, Arg.ref i ∈ args ∧ env[i]? = some (.raised e) := by
  induction args with
  | nil => simp [argsOf]
  | cons a args ih =>
    have ih' := ih fun i hi => ha i (List.mem_cons_of_mem _ hi)
    have step : ∀ n : Nat, argsOf env (a :: args) = (argsOf env args).map (n :: ·) → (∀ i e, a = .ref i → env[i]? ≠ some (.raised e)) →
        ((∃ e, argsOf env (a :: args) = .error e) ↔ ∃ i e, Arg.ref i ∈ a :: args ∧ env[i]? = some (.raised e)) := by
      intro n hn hne
      have e1 : (∃ e, argsOf env (a :: args) = .error e) ↔ ∃ e, argsOf env args = .error e := by
        rw [hn]
        cases argsOf env args <;> simp [Except.map]
      rw [e1, ih']
      constructor
      · rintro ⟨i, e, hm, he⟩; exact ⟨i, e, List.mem_cons_of_mem _ hm, he⟩
      · rintro ⟨i, e, hm, he⟩
        rcases List.mem_cons.1 hm with hm | hm
        · exact absurd he (hne i e hm.symm)
        · exact ⟨i, e, hm, he⟩
    cases a with
    | num n => exact step n rfl (fun i e h => by cases h)
    | ref i =>
      have hi := ha i (List.mem_cons_self ..)
      obtain ⟨x, hx⟩ : ∃ x, env[i]? = some x := ⟨_, List.getElem?_eq_getElem hi⟩
      cases x with
      | value n =>
        refine step n (by simp only [argsOf, hx]) (fun j e h => ?_)
        cases h
        rw [hx]
        simp
      | raised e =>
        exact ⟨fun _ => ⟨i, e, List.mem_cons_self .., hx⟩, fun _ => ⟨e, by simp only [argsOf, hx]⟩⟩

theorem produced_results (F : Funs) (f : Nat) (vs : List Nat) :
    Pyseq.produced (F.rets f) (objRet (F.rets f) (F.code f vs)) =
      ((match F.code f vs with | .ok l => l.map Res.value | .error e => List.replicate (F.rets f) (.raised e)).map toObj, true) := by
  cases hc : F.code f vs with
  | error e => simp [objRet, Pyseq.produced, toObj]
  | ok l =>
    have hl := F.fits f vs l hc
    simp only [objRet]
    by_cases h1 : F.rets f = 1
    · rw [if_pos h1, h1]
      obtain ⟨x, rfl⟩ := List.length_eq_one_iff.1 (hl.trans h1)
      rfl
    · rw [if_neg h1]
      have e : ((l.map Res.value).map toObj) = l.map Pymp.Val.data := by simp [List.map_map, Function.comp_def, toObj]
      rw [e]
      cases hr : F.rets f with
      | zero =>
        rw [hr] at hl
        simp [Pyseq.produced, List.eq_nil_of_length_eq_zero hl]
      | succ n =>
        cases n with
        | zero => exact absurd hr h1
        | succ n =>
          rw [hr] at hl
          have hm : (l.map Pymp.Val.data).length = n + 1 + 1 := by simp [hl]
          simp only [Pyseq.produced, Option.getD_some, hm]
          rw [List.take_of_length_le (by omega)]
          simp

theorem seq_step {F : Funs} {env : List Res} {s : Pyseq.State} (h : SeqOk env s) (c : Call) (hf : Formed F env.length [c]) :
    ∃ s' o, Pyseq.step (objWorld F) s (pyseqOp F c) = some (s', o) ∧
      ((ArgsFine F env [c] ∧ o = .refs ((List.range (resultsOf F env c).length).map (env.length + ·)) ∧ SeqOk (env ++ resultsOf F env c) s') ∨
       (¬ ArgsFine F env [c] ∧ ∃ e, o = .raised (.user e))) := by
  have hsl : s.store.length = env.length := by rw [h.store]; simp
  cases c with
  | put n =>
    refine ⟨_, _, rfl, Or.inl ⟨trivial, ?_, ?_⟩⟩
    · simp [resultsOf, hsl]
    · refine ⟨by simp [h.store, resultsOf, toObj], fun i hi => ?_, fun x hx i hi => ?_⟩
      · simp only [resultsOf, List.length_append, List.length_singleton] at hi
        by_cases e : i < env.length
        · obtain ⟨x, hx, hxi⟩ := h.refs i e
          exact ⟨x, List.mem_append_left _ hx, hxi⟩
        · exact ⟨_, List.mem_append_right _ (List.mem_singleton.2 rfl), by simp [Pymp.Item.refs, hsl]; omega⟩
      · simp only [resultsOf, List.length_append, List.length_singleton]
        rcases List.mem_append.1 hx with hx | hx
        · have := h.known x hx i hi; omega
        · rw [List.mem_singleton.1 hx] at hi
          simp only [Pymp.Item.refs, List.mem_singleton, hsl] at hi
          omega
  | call f args =>
    obtain ⟨ha, -⟩ := hf
    have hk := (seq_known h args).2 ha
    have hl := length_resultsOf F env f args
    simp only [pyseqOp, Pyseq.step, if_pos hk, Pyseq.submit, seq_args h args ha]
    have herr := argsOf_error args ha
    cases hx : argsOf env args with
    | error e =>
      refine ⟨_, _, rfl, Or.inr ⟨fun hfine => ?_, e, rfl⟩⟩
      obtain ⟨i, e', hm, he⟩ := herr.1 ⟨e, hx⟩
      exact hfine.1 i e' hm he
    | ok vs =>
      have e0 : (objNum ∘ Pymp.Val.data) = id := rfl
      have hp := produced_results F f vs
      have hcall : Pymp.callTarget (objWorld F) (Pyseq.histOf s.actors (.fn f)) (vs.map Pymp.Val.data) (.fn f) =
          objRet (F.rets f) (F.code f vs) := by
        simp only [Pymp.callTarget, objWorld, List.map_map, e0, List.map_id]
      have hres : (resultsOf F env (.call f args)).map toObj =
          (match F.code f vs with | .ok l => l.map Res.value | .error e => List.replicate (F.rets f) (.raised e)).map toObj := by
        simp only [resultsOf, hx, Except.bind]
        cases F.code f vs <;> rfl
      rw [← hres] at hp
      simp only [Except.map, hcall, hp, if_true]
      refine ⟨_, _, rfl, Or.inl ⟨⟨fun i e hm he => ?_, trivial⟩, ?_, ?_⟩⟩
      · obtain ⟨e', he'⟩ := herr.2 ⟨i, e, hm, he⟩
        rw [hx] at he'
        cases he'
      · rw [hl, hsl]
      · refine ⟨by simp [h.store], fun i hi => ?_, fun x hxm i hi => ?_⟩
        · simp only [List.length_append, hl] at hi
          by_cases e : i < env.length
          · obtain ⟨x, hxm, hxi⟩ := h.refs i e
            exact ⟨x, List.mem_append_left _ hxm, hxi⟩
          · refine ⟨_, List.mem_append_right _ (List.mem_singleton.2 rfl), ?_⟩
            simp only [Pymp.Item.refs, List.mem_map, List.mem_range, hsl]
            exact ⟨i - env.length, by omega, by omega⟩
        · simp only [List.length_append, hl]
          rcases List.mem_append.1 hxm with hxm | hxm
          · have := h.known x hxm i hi; omega
          · rw [List.mem_singleton.1 hxm] at hi
            simp only [Pymp.Item.refs, List.mem_map, List.mem_range, hsl] at hi
            obtain ⟨k, hk1, rfl⟩ := hi
            omega

theorem formed_cons {F : Funs} {n : Nat} {c : Call} {cs : List Call} (env : List Res) (hn : env.length = n) :
    Formed F n (c :: cs) ↔ Formed F n [c] ∧ Formed F (env ++ resultsOf F env c).length cs := by
  subst hn
  cases c with
  | put n => simp [Formed, resultsOf]
  | call f args => rw [List.length_append, length_resultsOf]; simp [Formed]

theorem argsFine_cons {F : Funs} {env : List Res} {c : Call} {cs : List Call} :
    ArgsFine F env (c :: cs) ↔ ArgsFine F env [c] ∧ ArgsFine F (env ++ resultsOf F env c) cs := by
  cases c <;> simp [ArgsFine]

theorem seq_run (F : Funs) (cs : List Call) : ∀ {env : List Res} {s : Pyseq.State}, SeqOk env s → Formed F env.length cs → ArgsFine F env cs →
    ∃ s' os, Pyseq.run (objWorld F) s (cs.map (pyseqOp F)) = some (s', os) ∧ (∀ e, Pyseq.Out.raised e ∉ os) ∧ SeqOk (direct F env cs) s' := by
  induction cs with
  | nil => intro env s h _ _; exact ⟨s, [], rfl, by simp, h⟩
  | cons c cs ih =>
    intro env s h hf ha
    obtain ⟨hf1, hf2⟩ := (formed_cons env rfl).1 hf
    obtain ⟨ha1, ha2⟩ := argsFine_cons.1 ha
    obtain ⟨s1, o, h1, h2 | h2⟩ := seq_step h c hf1
    · obtain ⟨-, ho, hok⟩ := h2
      obtain ⟨s', os, hr, hn, hs⟩ := ih hok hf2 ha2
      refine ⟨s', o :: os, by simp only [List.map_cons, Pyseq.run, h1, hr], fun e he => ?_, hs⟩
      rcases List.mem_cons.1 he with he | he
      · rw [ho] at he; cases he
      · exact hn e he
    · exact absurd ha1 h2.1

theorem seq_fine (F : Funs) (cs : List Call) : ∀ {env : List Res} {s s' : Pyseq.State} {os : List Pyseq.Out}, SeqOk env s → Formed F env.length cs →
    Pyseq.run (objWorld F) s (cs.map (pyseqOp F)) = some (s', os) → (∀ e, Pyseq.Out.raised e ∉ os) → ArgsFine F env cs := by
  induction cs with
  | nil => intro env s s' os _ _ _ _; exact trivial
  | cons c cs ih =>
    intro env s s' os h hf hr hn
    obtain ⟨hf1, hf2⟩ := (formed_cons env rfl).1 hf
    obtain ⟨s1, o, h1, h2⟩ := seq_step h c hf1
    simp only [List.map_cons, Pyseq.run, h1] at hr
    split at hr
    · cases hr
    · rename_i s2 os' hr2
      cases hr
      rcases h2 with ⟨hfine, -, hok⟩ | ⟨-, e, ho⟩
      · exact argsFine_cons.2 ⟨hfine, ih hok hf2 hr2 fun e he => hn e (List.mem_cons_of_mem _ he)⟩
      · exact absurd (ho ▸ List.mem_cons_self ..) (hn (.user e))

end Verif.Backends
