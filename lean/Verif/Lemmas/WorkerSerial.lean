import Verif.Lemmas.WorkerActor
import Verif.Lemmas.WorkerLive
import Verif.Spec.LocalObject
import Mathlib.Data.List.Nodup
import Mathlib.Data.List.Perm.Subperm

/-! Calls of one actor in a worker, whatever waits for what: the invariant that the calls executed so far are those of a local object. -/
namespace Verif.Spec
open Verif.Worker (Val Ret World)

theorem localCalls_append (W : World) : ∀ (l : List (Nat × List Val)) (s : Val) (q : Nat × List Val),
    localCalls W s (l ++ [q]) = ((localCall W q.1 (localCalls W s l).1 q.2).1,
      (localCalls W s l).2 ++ [(localCall W q.1 (localCalls W s l).1 q.2).2])
  | [], s, q => rfl
  | x :: l, s, q => by
      simp only [List.cons_append, localCalls]
      rw [localCalls_append W l _ q]

theorem localCalls_length (W : World) : ∀ (l : List (Nat × List Val)) (s : Val), (localCalls W s l).2.length = l.length
  | [], _ => rfl
  | x :: l, s => by simp [localCalls, localCalls_length W l]

end Verif.Spec

namespace Verif.Worker
open Verif.Spec

theorem unwrap_static {w w' : Worker} {v v' : Val} {p : Bool} (h : w.unwrap v = .ok (v', p, w')) :
    w'.store = w.store ∧ w'.owner = w.owner := by
  cases v with
  | ref id =>
    simp only [Worker.unwrap] at h
    split at h
    · simp only [Except.ok.injEq, Prod.mk.injEq] at h; rw [← h.2.2]; exact ⟨rfl, rfl⟩
    · split at h
      · simp at h
      · split at h <;> (simp only [Except.ok.injEq, Prod.mk.injEq] at h; rw [← h.2.2]; exact ⟨rfl, rfl⟩)
  | _ => simp only [Worker.unwrap, Except.ok.injEq, Prod.mk.injEq] at h; rw [← h.2.2]; exact ⟨rfl, rfl⟩

mutual
/-- References that are not known raise. -/
theorem materialize_known : ∀ (v : Val) (w : Worker) (p : Bool) (x : Val × Bool × Worker), Closed w.store → materialize w p v = .ok x →
    KnownIn w (refs v)
  | .ref i, w, p, x, _, h => by
      intro j hj
      simp only [refs, List.mem_singleton] at hj
      subst hj
      cases hs : w.store j with
      | some v => exact Or.inl (by simp)
      | none =>
        cases ho : w.owner j with
        | some o => exact Or.inr (by simp)
        | none => simp [materialize, Worker.unwrap, hs, ho] at h
  | .data n, w, p, x, _, _ => by simp [KnownIn, refs]
  | .exc n, w, p, x, _, _ => by simp [KnownIn, refs]
  | .code n, w, p, x, _, _ => by simp [KnownIn, refs]
  | .list vs, w, p, x, hc, h => by
      simp only [materialize] at h
      split at h
      · rename_i y1 y2 y3 hy
        simp only [refs]
        exact materializeList_known vs w p _ hc hy
      · simp at h
/-- The same for lists. -/
theorem materializeList_known : ∀ (vs : List Val) (w : Worker) (p : Bool) (x : List Val × Bool × Worker), Closed w.store →
    materializeList w p vs = .ok x → KnownIn w (refsList vs)
  | [], w, p, x, _, _ => by simp [KnownIn, refsList]
  | v :: vs, w, p, x, hc, h => by
      simp only [materializeList] at h
      split at h
      · simp at h
      · rename_i v1 p1 w1 h1
        have k1 := materialize_known v w p _ hc h1
        obtain ⟨w1', e1, a1⟩ := materialize_spec v w p hc k1
        rw [e1] at h1
        simp only [Except.ok.injEq, Prod.mk.injEq] at h1
        obtain ⟨-, -, rfl⟩ := h1
        split at h
        · simp at h
        · rename_i v2 p2 w2 h2
          obtain ⟨s2, o2⟩ := unwrap_static h2
          split at h
          · simp at h
          · rename_i vs' p3 w3 h3
            have k2 := materializeList_known vs w2 _ _ (by rw [s2, a1.store]; exact hc) h3
            intro i hi
            simp only [refsList, List.mem_append] at hi
            rcases hi with hi | hi
            · exact k1 i hi
            · have := k2 i hi
              rwa [s2, o2, a1.store, a1.owner] at this
end

/-- The two outcomes of an attempt at any request. -/
theorem process_any {W : World} {w w' : Worker} {r : Request} {o : Option Request} (hc : Closed w.store)
    (hp : w.process W r = .ok (o, w')) :
    (o = some { r with args := substList w.store r.args } ∧ Asks (refsList r.args) w w' ∧ Missing w (refsList r.args) = true) ∨
    (o = none ∧ Missing w (refsList r.args) = false ∧ Executed W w r (substList w.store r.args) w') := by
  by_cases hkn : w.known r.task = true
  swap
  · simp [Worker.process, hkn] at hp
  have hk : KnownIn w (refsList r.args) := by
    cases hm : materializeList w false r.args with
    | error e => simp [Worker.process, hkn, hm] at hp
    | ok x => exact materializeList_known _ _ _ x hc hm
  obtain ⟨w1, m1, a1⟩ := materializeList_spec r.args w false hc hk
  simp only [Worker.process, hkn, if_true, m1] at hp
  cases hb : Missing w (refsList r.args) with
  | true =>
    simp only [hb, Bool.or_true, Except.ok.injEq, Prod.mk.injEq] at hp
    obtain ⟨rfl, rfl⟩ := hp
    exact Or.inl ⟨rfl, a1, rfl⟩
  | false =>
    simp only [hb, Bool.or_false] at hp
    cases he : w1.execute W r (substList w.store r.args) with
    | error e => rw [he] at hp; simp at hp
    | ok w2 =>
      rw [he] at hp
      simp only [Except.ok.injEq, Prod.mk.injEq] at hp
      obtain ⟨rfl, rfl⟩ := hp
      have hw : w1 = w := by
        obtain ⟨l, q, ho, -, p⟩ := a1.asked
        have hl : l = [] := by
          cases l with
          | nil => rfl
          | cons j l =>
            obtain ⟨q1, -, q3, -⟩ := p j (by simp)
            simp only [Missing, List.any_eq_false] at hb
            have := hb j q1
            simp [q3] at this
        subst hl
        cases w
        cases w1
        obtain ⟨z1, z2, z3, z4, z5, z6, z7, z8, z9, z10, z11, z12, -, -⟩ := a1
        simp only [List.map_nil, List.append_nil, List.reverse_nil, List.nil_append] at *
        subst z1 z2 z3 z4 z5 z6 z7 z8 z9 z10 z11 z12 q ho
        rfl
      rw [hw] at he
      exact Or.inr ⟨rfl, rfl, w2, he, rfl⟩

/-! ### Writing results -/

theorem putAll_extend : ∀ (l : List (Nat × Val)) (w : Worker), (w.putAll l).store = extend w.store l
  | [], _ => rfl
  | x :: l, w => putAll_extend l (w.put x.1 x.2)

theorem extend_fresh : ∀ (l : List (Nat × Val)) (f : Nat → Option Val), (l.map (·.1)).Nodup → (∀ p ∈ l, f p.1 = none) →
    Le f (extend f l) ∧ (∀ p ∈ l, extend f l p.1 = some p.2) ∧ ∀ i, i ∉ l.map (·.1) → extend f l i = f i
  | [], f, _, _ => ⟨fun _ _ h => h, by simp, fun _ _ => rfl⟩
  | x :: l, f, hn, hf => by
      simp only [List.map_cons, List.nodup_cons] at hn
      obtain ⟨a, b, c⟩ := extend_fresh l (fun i => if i = x.1 then some x.2 else f i) hn.2 (fun p hp => by
        have : p.1 ≠ x.1 := fun e => hn.1 (e ▸ List.mem_map_of_mem hp)
        simp [this, hf p (List.mem_cons_of_mem _ hp)])
      have e : extend f (x :: l) = extend (fun i => if i = x.1 then some x.2 else f i) l := rfl
      rw [e]
      refine ⟨fun i v hv => ?_, fun p hp => ?_, fun i hi => ?_⟩
      · refine a i v ?_
        have : i ≠ x.1 := by rintro rfl; rw [hf x List.mem_cons_self] at hv; cases hv
        simp [this, hv]
      · rcases List.mem_cons.1 hp with rfl | hp
        · rw [c _ hn.1]; simp
        · exact b p hp
      · simp only [List.map_cons, List.mem_cons, not_or] at hi
        rw [c i hi.2]; simp [hi.1]

theorem zip_keys : ∀ (outs : List Nat) (vs : List Val), ((outs.zip vs).map (·.1)).Sublist outs
  | [], _ => by simp
  | _ :: _, [] => by simp
  | o :: outs, v :: vs => by simpa using zip_keys outs vs

theorem outputValues_keys (outs : List Nat) (r : Ret) : ((outputValues outs r).map (·.1)).Sublist outs := by
  cases r with
  | raise e => simp [outputValues, Function.comp_def]
  | ret v =>
    simp only [outputValues]
    split
    · simp
    · exact zip_keys _ _
    · simp

theorem outputValues_closed (outs : List Nat) (r : Ret) (hr : ∀ v, r = .ret v → refs v = []) :
    ∀ p ∈ outputValues outs r, refs p.2 = [] := by
  have mem : ∀ (vs : List Val), refsList vs = [] → ∀ v ∈ vs, refs v = [] := by
    intro vs
    induction vs with
    | nil => simp
    | cons a l ih =>
      intro h v hv
      simp only [refsList, List.append_eq_nil_iff] at h
      rcases List.mem_cons.1 hv with rfl | hv
      · exact h.1
      · exact ih h.2 v hv
  intro p hp
  cases r with
  | raise e =>
    simp only [outputValues, List.mem_map] at hp
    obtain ⟨o, -, rfl⟩ := hp
    rfl
  | ret v =>
    have hv := hr v rfl
    simp only [outputValues] at hp
    split at hp
    · rw [List.mem_singleton.1 hp]; exact hv
    · simp only [refs] at hv
      exact mem _ hv _ (List.of_mem_zip hp).2
    · cases hp

theorem closed_extend {f : Nat → Option Val} (hf : Closed f) : ∀ (l : List (Nat × Val)), (∀ p ∈ l, refs p.2 = []) → Closed (extend f l) := by
  intro l
  induction l generalizing f with
  | nil => exact fun _ => hf
  | cons x l ih =>
    intro h
    refine ih (f := fun i => if i = x.1 then some x.2 else f i) ?_ (fun p hp => h p (List.mem_cons_of_mem _ hp))
    intro i v hv
    simp only at hv
    split at hv
    · cases hv; exact h x List.mem_cons_self
    · exact hf i v hv

/-- What an execution does to the values and the coroutines. -/
theorem execute_effect {W : World} {w w' : Worker} {r : Request} {args : List Val} (he : w.execute W r args = .ok w') :
    (w.taskAsync W r.task = true ∧ w'.store = w.store ∧ w'.running = w.running ++ [⟨r.outs, (w.evaluate W r.task args).1⟩]) ∨
    (w.taskAsync W r.task = false ∧ w'.store = extend w.store (outputValues r.outs (w.evaluate W r.task args).1) ∧
      w'.running = w.running) := by
  have h1 : (Worker.evaluate W { w with log := w.log ++ [{ r with args := args }] } r.task args).1 = (w.evaluate W r.task args).1 := by
    simp only [Worker.evaluate]
    split
    · rfl
    · split
      · split <;> rfl
      · split
        · split <;> rfl
        · rfl
  have h2 : (Worker.evaluate W { w with log := w.log ++ [{ r with args := args }] } r.task args).2.store = w.store ∧
      (Worker.evaluate W { w with log := w.log ++ [{ r with args := args }] } r.task args).2.running = w.running := by
    simp only [Worker.evaluate]
    split
    · exact ⟨rfl, rfl⟩
    · split
      · split <;> exact ⟨rfl, rfl⟩
      · split
        · split <;> exact ⟨rfl, rfl⟩
        · exact ⟨rfl, rfl⟩
  simp only [Worker.execute] at he
  rw [h1] at he
  split at he
  · rename_i ha
    simp only [Except.ok.injEq] at he
    subst he
    exact Or.inl ⟨ha, h2.1, by simp only [h2.2]⟩
  · rename_i ha
    refine Or.inr ⟨by simpa using ha, ?_, by rw [(core_ext (finish_core he)).2.2.2.2.2.2.2.1]; exact h2.2⟩
    simp only [Worker.finish] at he
    split at he
    · simp at he
    · rename_i l k ho
      simp only [Except.ok.injEq] at he
      subst he
      rw [outputs_eq ho]
      simp only [Worker.send]
      rw [(checkGets_static r.outs _).1, putAll_extend, h2.1]

/-! ### The invariant -/

/-- The request that the worker makes of a method call. -/
def asRequest (h : Nat) (q : Request × Nat) : Request := { q.1 with task := .method h q.2 }

/-- A call that waits: what is kept of it still means what was sent. -/
structure Waits (W : World) (h : Nat) (f : Nat → Option Val) (q : Request × Nat) (r : Request) : Prop where
  tag : r.tag = q.1.tag
  task : r.task = .method h q.2
  outs : r.outs = q.1.outs
  sync : W.isAsync q.2 = false
  args : substList f r.args = substList f q.1.args
  miss : ∀ i ∈ refsList q.1.args, i ∈ refsList r.args ∨ f i ≠ none

/-- The calls that arrived are split into those executed, which are those of a local object, and those that wait. -/
structure Split (W : World) (h : Nat) (st : Option Val) (calls : List (Request × Nat)) (R : List Request) (f : Nat → Option Val)
    (a : Option Val) (log : List Request) (order : List (Request × Nat)) (kept : List ((Request × Nat) × Request)) : Prop where
  empty : st = none → calls = []
  perm : (order ++ kept.map (·.1)).Perm calls
  held : (kept.map (·.2)).Perm (R.filter (ofActor h))
  waits : ∀ x ∈ kept, Waits W h f x.1 x.2
  ran : log.filter (ofActor h) = order.map fun q => { q.1 with task := .method h q.2, args := substList f q.1.args }
  avail : ∀ q ∈ order, ∀ i ∈ refsList q.1.args, f i ≠ none
  state : a = st.map fun s => (localCalls W s (order.map fun q => (q.2, substList f q.1.args))).1
  results : ∀ s, st = some s → ∀ x ∈ order.zip (localCalls W s (order.map fun q => (q.2, substList f q.1.args))).2,
    ∀ p ∈ outputValues x.1.1.outs x.2, f p.1 = some p.2

theorem order_args {f g : Nat → Option Val} (hle : Le f g) {order : List (Request × Nat)}
    (h : ∀ q ∈ order, ∀ i ∈ refsList q.1.args, f i ≠ none) : ∀ q ∈ order, substList g q.1.args = substList f q.1.args := by
  intro q hq
  refine substList_congr _ _ _ (fun i hi => ?_)
  cases hv : f i with
  | none => exact absurd hv (h q hq i hi)
  | some v => rw [hle i v hv]

theorem Split.mono {W : World} {h : Nat} {st : Option Val} {calls : List (Request × Nat)} {R : List Request} {f g : Nat → Option Val}
    {a : Option Val} {log : List Request} {order : List (Request × Nat)} {kept : List ((Request × Nat) × Request)}
    (s : Split W h st calls R f a log order kept) (hc : Closed f) (hle : Le f g) : Split W h st calls R g a log order kept := by
  have e1 := order_args hle s.avail
  have e2 : (order.map fun q => (q.2, substList g q.1.args)) = order.map fun q => (q.2, substList f q.1.args) :=
    List.map_congr_left (fun q hq => by rw [e1 q hq])
  refine ⟨s.empty, s.perm, s.held, fun x hx => ?_, ?_, fun q hq i hi => ?_, ?_, ?_⟩
  · obtain ⟨a1, a2, a3, a4, a5, a6⟩ := s.waits x hx
    refine ⟨a1, a2, a3, a4, ?_, fun i hi => ?_⟩
    · rw [← substList_substList f g hc hle x.2.args, ← substList_substList f g hc hle x.1.1.args, a5]
    · rcases a6 i hi with h1 | h1
      · exact Or.inl h1
      · cases hv : f i with
        | none => exact absurd hv h1
        | some v => exact Or.inr (by rw [hle i v hv]; simp)
  · rw [s.ran]
    exact List.map_congr_left (fun q hq => by rw [e1 q hq])
  · cases hv : f i with
    | none => exact absurd hv (s.avail q hq i hi)
    | some v => rw [hle i v hv]; simp
  · rw [e2]; exact s.state
  · intro t ht x hx p hp
    rw [e2] at hx
    exact hle _ _ (s.results t ht x hx p hp)

/-- The invariant; `R` are all requests that wait, `fut` the references that will be written later. -/
structure Ser (W : World) (h : Nat) (st : Option Val) (calls : List (Request × Nat)) (fut : List Nat) (R : List Request) (w : Worker) :
    Prop where
  closed : Closed w.store
  coro : ∀ c ∈ w.running, ∀ v, c.result = .ret v → refs v = []
  nodup : (R.flatMap (·.outs) ++ (w.running.flatMap (·.outs) ++ fut)).Nodup
  fresh : ∀ i ∈ R.flatMap (·.outs) ++ (w.running.flatMap (·.outs) ++ fut), w.store i = none
  split : ∃ order kept, Split W h st calls R w.store (w.actors h) w.log order kept

theorem Ser.perm {W : World} {h : Nat} {st : Option Val} {calls : List (Request × Nat)} {fut : List Nat} {R R' : List Request} {w : Worker}
    (s : Ser W h st calls fut R w) (hp : R.Perm R') : Ser W h st calls fut R' w := by
  have hq : (R.flatMap (·.outs) ++ (w.running.flatMap (·.outs) ++ fut)).Perm (R'.flatMap (·.outs) ++ (w.running.flatMap (·.outs) ++ fut)) :=
    (hp.flatMap_right _).append_right _
  obtain ⟨order, kept, t⟩ := s.split
  exact ⟨s.closed, s.coro, hq.nodup_iff.1 s.nodup, fun i hi => s.fresh i (hq.mem_iff.2 hi), order, kept,
    ⟨t.empty, t.perm, t.held.trans (hp.filter _), t.waits, t.ran, t.avail, t.state, t.results⟩⟩

/-- Fields on which the invariant depends. -/
theorem Ser.congr {W : World} {h : Nat} {st : Option Val} {calls : List (Request × Nat)} {fut : List Nat} {R : List Request} {w w' : Worker}
    (s : Ser W h st calls fut R w) (h1 : w'.store = w.store) (h2 : w'.running = w.running) (h3 : w'.actors h = w.actors h)
    (h4 : w'.log = w.log) : Ser W h st calls fut R w' := by
  refine ⟨by rw [h1]; exact s.closed, by rw [h2]; exact s.coro, by rw [h2]; exact s.nodup, by rw [h1, h2]; exact s.fresh, ?_⟩
  rw [h1, h3, h4]; exact s.split

/-- The user code returns no references when it is given none. -/
structure NoRefs (W : World) : Prop where
  call : ∀ f args v, refsList args = [] → W.call f args = .ret v → refs v = []
  method : ∀ f s args v, refsList args = [] → (W.method f s args).2 = .ret v → refs v = []

theorem evaluate_closed {W : World} (hW : NoRefs W) (w : Worker) (t : Task) (args : List Val) (ha : refsList args = []) :
    ∀ v, (w.evaluate W t args).1 = .ret v → refs v = [] := by
  intro v hv
  simp only [Worker.evaluate] at hv
  split at hv
  · cases hv
  · split at hv
    · split at hv
      · exact hW.call _ _ _ ha hv
      · cases hv
    · split at hv
      · split at hv <;> exact hW.method _ _ _ _ ha hv
      · cases hv

theorem mem_split {α : Type} {l : List α} {x : α} (h : x ∈ l) : ∃ a b, l = a ++ x :: b := List.append_of_mem h

theorem ofActor_iff {h : Nat} {r : Request} : ofActor h r = true ↔ ∃ n, r.task = .method h n := by
  simp only [ofActor]
  cases ht : r.task with
  | fn f => simp
  | method k n => simp

/-- One attempt. -/
theorem Ser.process {W : World} (hW : NoRefs W) {h : Nat} {st : Option Val} {calls : List (Request × Nat)} {fut : List Nat} {R : List Request}
    {w w' : Worker} {r : Request} (s : Ser W h st calls fut (r :: R) w) {o : Option Request} (hp : w.process W r = .ok (o, w')) :
    Ser W h st calls fut (o.toList ++ R) w' ∧ w'.pending = w.pending ∧ w'.pendingActor = w.pendingActor := by
  obtain ⟨order, kept, t⟩ := s.split
  rcases process_any s.closed hp with ⟨rfl, a, hm⟩ | ⟨rfl, hm, w2, he, rfl⟩
  · refine ⟨Ser.congr (w := w) ?_ a.store a.running (by rw [a.actors]) a.log, a.pending, a.pendingActor⟩
    refine ⟨s.closed, s.coro, by simpa using s.nodup, by simpa using s.fresh, ?_⟩
    cases hr : ofActor h r with
    | false =>
      refine ⟨order, kept, t.empty, t.perm, ?_, t.waits, t.ran, t.avail, t.state, t.results⟩
      have hr' : ofActor h { r with args := substList w.store r.args } = false := hr
      simpa [hr, hr'] using t.held
    | true =>
      have hr' : ofActor h { r with args := substList w.store r.args } = true := hr
      have hk := t.held
      rw [List.filter_cons_of_pos hr] at hk
      obtain ⟨x, hx, hxr⟩ := List.mem_map.1 (hk.mem_iff.2 List.mem_cons_self)
      obtain ⟨u, v, rfl⟩ := mem_split hx
      have hw := t.waits x hx
      refine ⟨order, (x.1, { r with args := substList w.store r.args }) :: (u ++ v), t.empty, ?_, ?_, ?_, t.ran, t.avail, t.state, t.results⟩
      · refine List.Perm.trans (List.Perm.append_left _ ?_) t.perm
        simp only [List.map_cons, List.map_append]
        exact List.perm_middle.symm
      · simp only [Option.toList_some, List.singleton_append, List.filter_cons_of_pos hr', List.map_cons]
        refine List.Perm.cons _ ?_
        have : (r :: (u ++ v).map (·.2)).Perm (r :: R.filter (ofActor h)) := by
          refine List.Perm.trans ?_ hk
          simp only [List.map_append, List.map_cons, hxr]
          exact List.perm_middle.symm
        exact this.cons_inv
      · intro y hy
        rcases List.mem_cons.1 hy with rfl | hy
        · subst hxr
          refine ⟨hw.tag, hw.task, hw.outs, hw.sync, ?_, fun i hi => ?_⟩
          · simp only
            rw [substList_substList _ _ s.closed (fun _ _ h => h), hw.args]
          · simp only
            cases hv : w.store i with
            | some z => exact Or.inr (by simp)
            | none =>
              rcases hw.miss i hi with h1 | h1
              · exact Or.inl ((refsList_subst _ s.closed _ _).2 ⟨h1, hv⟩)
              · exact absurd hv h1
        · refine t.waits y ?_
          rw [List.mem_append] at hy ⊢
          rcases hy with hy | hy
          · exact Or.inl hy
          · exact Or.inr (List.mem_cons_of_mem _ hy)
  · obtain ⟨e1, e2, e3, e4⟩ := checked_actors he
    have e5 := (checkGets_static r.outs w2).1
    have e6 := (core_ext (checkGets_core r.outs w2)).2.2.2.2.2.2.2.1
    refine ⟨?_, e3, e4⟩
    have hno : ∀ i ∈ refsList r.args, w.store i ≠ none := by
      intro i hi hn
      simp only [Missing, List.any_eq_false] at hm
      exact hm i hi (by simp [hn])
    have hcl := evaluate_closed hW w r.task (substList w.store r.args) (List.eq_nil_iff_forall_not_mem.2 fun i hi => by
      obtain ⟨h1, h2⟩ := (refsList_subst _ s.closed _ _).1 hi
      exact hno i h1 h2)
    -- the new values
    have key : Le w.store (w2.checkGets r.outs).store ∧ Closed (w2.checkGets r.outs).store ∧
        (∀ c ∈ (w2.checkGets r.outs).running, ∀ v, c.result = .ret v → refs v = []) ∧
        (R.flatMap (·.outs) ++ ((w2.checkGets r.outs).running.flatMap (·.outs) ++ fut)).Nodup ∧
        (∀ i ∈ R.flatMap (·.outs) ++ ((w2.checkGets r.outs).running.flatMap (·.outs) ++ fut), (w2.checkGets r.outs).store i = none) ∧
        (w.taskAsync W r.task = false → ∀ p ∈ outputValues r.outs (w.evaluate W r.task (substList w.store r.args)).1,
          (w2.checkGets r.outs).store p.1 = some p.2) := by
      rw [e5, e6]
      have hnd := s.nodup
      have hfr := s.fresh
      simp only [List.flatMap_cons, List.append_assoc] at hnd hfr
      rcases execute_effect he with ⟨ha, h1, h2⟩ | ⟨ha, h1, h2⟩
      · rw [h1, h2]
        have hpm : (r.outs ++ (R.flatMap (·.outs) ++ (w.running.flatMap (·.outs) ++ fut))).Perm
            (R.flatMap (·.outs) ++ ((w.running ++ [(⟨r.outs, (w.evaluate W r.task (substList w.store r.args)).1⟩ : Coroutine)]).flatMap (·.outs) ++ fut)) := by
          simp only [List.flatMap_append, List.flatMap_cons, List.flatMap_nil, List.append_nil, List.append_assoc]
          refine (List.perm_append_comm_assoc _ _ _).trans (List.Perm.append_left _ ?_)
          exact List.perm_append_comm_assoc _ _ _
        refine ⟨fun _ _ h => h, s.closed, ?_, hpm.nodup_iff.1 hnd, fun i hi => hfr i (hpm.mem_iff.2 hi), fun hf => ?_⟩
        · intro c hc v hv
          rcases List.mem_append.1 hc with hc | hc
          · exact s.coro c hc v hv
          · rw [List.mem_singleton.1 hc] at hv; exact hcl v hv
        · rw [ha] at hf; cases hf
      · rw [h1, h2]
        have hsub := outputValues_keys r.outs (w.evaluate W r.task (substList w.store r.args)).1
        obtain ⟨n1, n2, n3⟩ := List.nodup_append.1 hnd
        obtain ⟨x1, x2, x3⟩ := extend_fresh (outputValues r.outs (w.evaluate W r.task (substList w.store r.args)).1) w.store
          (hsub.nodup n1) (fun p hp => hfr _ (List.mem_append_left _ (hsub.subset (List.mem_map_of_mem hp))))
        refine ⟨x1, closed_extend s.closed _ (outputValues_closed _ _ hcl), s.coro, n2, fun i hi => ?_, fun _ => x2⟩
        rw [x3 i (fun hc => n3 i (hsub.subset hc) i hi rfl)]
        exact hfr i (List.mem_append_right _ hi)
    obtain ⟨hle, k1, k2, k3, k4, k5⟩ := key
    refine ⟨k1, k2, by simpa using k3, by simpa using k4, ?_⟩
    have t' := t.mono s.closed hle
    rw [e1, e2]
    cases hr : ofActor h r with
    | false =>
      have hr' : ofActor h { r with args := substList w.store r.args } = false := hr
      refine ⟨order, kept, t'.empty, t'.perm, ?_, t'.waits, ?_, t'.avail, ?_, t'.results⟩
      · simpa [hr] using t'.held
      · rw [List.filter_append, List.filter_cons_of_neg (by simp [hr']), List.filter_nil, List.append_nil]
        exact t'.ran
      · rw [evaluate_other W w hr]; exact t'.state
    | true =>
      have hr' : ofActor h { r with args := substList w.store r.args } = true := hr
      have hk := t'.held
      rw [List.filter_cons_of_pos hr] at hk
      obtain ⟨x, hx, hxr⟩ := List.mem_map.1 (hk.mem_iff.2 List.mem_cons_self)
      obtain ⟨u, v, rfl⟩ := mem_split hx
      have hw := t.waits x hx
      have hw' := t'.waits x hx
      have hst : st ≠ none := by
        intro h0
        have := t.perm.length_eq
        rw [t.empty h0] at this
        simp at this
      obtain ⟨s0, rfl⟩ := Option.ne_none_iff_exists'.1 hst
      subst hxr
      have hav : ∀ i ∈ refsList x.1.1.args, w.store i ≠ none := by
        intro i hi
        rcases hw.miss i hi with h1 | h1
        · exact hno i h1
        · exact h1
      have hargs : substList (w2.checkGets x.2.outs).store x.1.1.args = substList w.store x.2.args := by
        rw [hw.args]
        refine substList_congr _ _ _ (fun i hi => ?_)
        cases hv : w.store i with
        | none => exact absurd hv (hav i hi)
        | some z => rw [hle i z hv]
      have hact : w.actors h = some (localCalls W s0 (order.map fun q => (q.2, substList (w2.checkGets x.2.outs).store q.1.args))).1 := t'.state
      -- the call itself
      have hev : (w.evaluate W x.2.task (substList w.store x.2.args)).1 = (localCall W x.1.2
            (localCalls W s0 (order.map fun q => (q.2, substList (w2.checkGets x.2.outs).store q.1.args))).1 (substList w.store x.2.args)).2 ∧
          (w.evaluate W x.2.task (substList w.store x.2.args)).2.actors h = some (localCall W x.1.2
            (localCalls W s0 (order.map fun q => (q.2, substList (w2.checkGets x.2.outs).store q.1.args))).1 (substList w.store x.2.args)).1 := by
        rw [hw.task]
        simp only [Worker.evaluate, firstExc_eq, localCall]
        cases hff : firstFailure (substList w.store x.2.args) with
        | some e => exact ⟨rfl, hact⟩
        | none =>
          simp only [hact, hw.sync, Bool.false_eq_true, if_false, upd, if_true, and_self]
      have hasync : w.taskAsync W x.2.task = false := by rw [hw.task]; exact hw.sync
      have hloc := localCalls_append W (order.map fun q => (q.2, substList (w2.checkGets x.2.outs).store q.1.args)) s0
        (x.1.2, substList (w2.checkGets x.2.outs).store x.1.1.args)
      refine ⟨order ++ [x.1], u ++ v, fun h0 => absurd h0 (by simp), ?_, ?_, ?_, ?_, ?_, ?_, ?_⟩
      · refine List.Perm.trans ?_ t'.perm
        rw [List.append_assoc]
        refine List.Perm.append_left _ ?_
        simp only [List.map_append, List.map_cons, List.singleton_append]
        exact List.perm_middle.symm
      · have : (x.2 :: (u ++ v).map (·.2)).Perm (x.2 :: R.filter (ofActor h)) := by
          refine List.Perm.trans ?_ hk
          simp only [List.map_append, List.map_cons]
          exact List.perm_middle.symm
        simpa using this.cons_inv
      · intro y hy
        refine t'.waits y ?_
        rw [List.mem_append] at hy ⊢
        rcases hy with hy | hy
        · exact Or.inl hy
        · exact Or.inr (List.mem_cons_of_mem _ hy)
      · rw [List.filter_append, List.filter_cons_of_pos hr', List.filter_nil, t'.ran, List.map_append]
        congr 1
        simp only [List.map_cons, List.map_nil, hargs]
        have a1 := hw.tag
        have a2 := hw.task
        have a3 := hw.outs
        obtain ⟨⟨⟨q1, q2, q3, q4⟩, q5⟩, ⟨y1, y2, y3, y4⟩⟩ := x
        simp only at a1 a2 a3 ⊢
        rw [a1, a2, a3]
      · intro q hq i hi
        rcases List.mem_append.1 hq with hq | hq
        · exact t'.avail q hq i hi
        · rw [List.mem_singleton.1 hq] at hi
          cases hv : w.store i with
          | none => exact absurd hv (hav i hi)
          | some z => rw [hle i z hv]; simp
      · rw [hev.2, Option.map_some, List.map_append, List.map_cons, List.map_nil, hloc, hargs]
      · intro s1 h1 y hy p hp
        cases h1
        rw [List.map_append, List.map_cons, List.map_nil, hloc, hargs] at hy
        simp only at hy
        rw [List.zip_append (by rw [localCalls_length, List.length_map])] at hy
        rcases List.mem_append.1 hy with hy | hy
        · exact t'.results s0 rfl y hy p hp
        · simp only [List.zip_cons_cons, List.zip_nil_right, List.mem_singleton] at hy
          subst hy
          simp only at hp
          rw [← hev.1, ← hw.outs] at hp
          exact k5 hasync p hp

/-- The attempts at a list of requests. -/
theorem Ser.processAll {W : World} (hW : NoRefs W) {h : Nat} {st : Option Val} {calls : List (Request × Nat)} {fut : List Nat} :
    ∀ (rs : List Request) {R : List Request} {w w' : Worker} {l : List Request}, Ser W h st calls fut (rs ++ R) w →
      w.processAll W rs = .ok (l, w') →
      Ser W h st calls fut (l ++ R) w' ∧ w'.pending = w.pending ∧ w'.pendingActor = w.pendingActor
  | [], R, w, w', l, s, hp => by
      simp only [Worker.processAll, Except.ok.injEq, Prod.mk.injEq] at hp
      obtain ⟨rfl, rfl⟩ := hp
      exact ⟨s, rfl, rfl⟩
  | r :: rs, R, w, w', l, s, hp => by
      simp only [Worker.processAll] at hp
      split at hp
      · simp at hp
      · rename_i o w1 h1
        split at hp
        · simp at hp
        · rename_i l' w2 h2
          simp only [Except.ok.injEq, Prod.mk.injEq] at hp
          obtain ⟨rfl, rfl⟩ := hp
          obtain ⟨s1, p1, a1⟩ := Ser.process hW (R := rs ++ R) s h1
          obtain ⟨s2, p2, a2⟩ := Ser.processAll hW rs (R := o.toList ++ R) (s1.perm (List.perm_append_comm_assoc _ _ _)) h2
          exact ⟨s2.perm (by rw [List.append_assoc]; exact List.perm_append_comm_assoc _ _ _), p2.trans p1, a2.trans a1⟩

/-- The invariant of a worker between two events. -/
def Serial (W : World) (h : Nat) (st : Option Val) (calls : List (Request × Nat)) (fut : List Nat) (w : Worker) : Prop :=
  Ser W h st calls fut (w.pending ++ w.pendingActor) w

theorem Serial.checkTasks {W : World} (hW : NoRefs W) {h : Nat} {st : Option Val} {calls : List (Request × Nat)} {fut : List Nat}
    {w w' : Worker} (s : Serial W h st calls fut w) (hp : w.checkTasks W = .ok w') : Serial W h st calls fut w' := by
  simp only [Worker.checkTasks] at hp
  split at hp
  · simp at hp
  · rename_i l w1 h1
    simp only [Except.ok.injEq] at hp
    obtain ⟨s1, -, a1⟩ := Ser.processAll hW w.pending (R := w.pendingActor) s h1
    subst hp
    refine Ser.congr (w := w1) ?_ rfl rfl rfl rfl
    simp only [a1]
    exact s1

theorem Serial.checkActorTasks {W : World} (hW : NoRefs W) {h : Nat} {st : Option Val} {calls : List (Request × Nat)} {fut : List Nat}
    {w w' : Worker} (s : Serial W h st calls fut w) (hp : w.checkActorTasks W = .ok w') : Serial W h st calls fut w' := by
  simp only [Worker.checkActorTasks] at hp
  split at hp
  · simp at hp
  · rename_i l w1 h1
    simp only [Except.ok.injEq] at hp
    obtain ⟨s1, p1, -⟩ := Ser.processAll hW w.pendingActor (R := w.pending) (Ser.perm s List.perm_append_comm) h1
    subst hp
    refine Ser.congr (w := w1) ?_ rfl rfl rfl rfl
    simp only [p1]
    exact s1.perm List.perm_append_comm

/-- The references that an event writes, now or later. -/
def writesOf : Event → List Nat
  | .op (.execute r) => r.outs
  | .op (.actorExecute r _ _) => r.outs
  | .op (.putData id _) => [id]
  | _ => []

/-- Events that may happen between the creation of the actor and now. -/
def Mild (W : World) (h : Nat) : Event → Prop
  | .op (.execute r) => ∃ f, r.task = .fn f
  | .op (.actorCreate k _) => k ≠ h
  | .op (.actorExecute _ k name) => k = h → W.isAsync name = false
  | .op (.putData _ v) => refs v = []
  | _ => True

/-- A new request that is no call of the actor. -/
theorem Ser.other {W : World} {h : Nat} {st : Option Val} {calls : List (Request × Nat)} {fut : List Nat} {R : List Request} {w : Worker}
    {r : Request} (hr : ofActor h r = false) (s : Ser W h st calls (r.outs ++ fut) R w) : Ser W h st calls fut (r :: R) w := by
  obtain ⟨order, kept, t⟩ := s.split
  have hp : (R.flatMap (·.outs) ++ (w.running.flatMap (·.outs) ++ (r.outs ++ fut))).Perm
      ((r :: R).flatMap (·.outs) ++ (w.running.flatMap (·.outs) ++ fut)) := by
    simp only [List.flatMap_cons, List.append_assoc]
    refine List.Perm.trans (List.Perm.append_left _ (List.perm_append_comm_assoc _ _ _)) ?_
    exact List.perm_append_comm_assoc _ _ _
  exact ⟨s.closed, s.coro, hp.nodup_iff.1 s.nodup, fun i hi => s.fresh i (hp.mem_iff.2 hi), order, kept, t.empty, t.perm,
    by simpa [hr] using t.held, t.waits, t.ran, t.avail, t.state, t.results⟩

/-- A new call of the actor. -/
theorem Ser.arrive {W : World} {h : Nat} {v : Val} {calls : List (Request × Nat)} {fut : List Nat} {R : List Request} {w : Worker}
    {q : Request × Nat} (hq : W.isAsync q.2 = false) (s : Ser W h (some v) calls (q.1.outs ++ fut) R w) :
    Ser W h (some v) (calls ++ [q]) fut ({ q.1 with task := .method h q.2 } :: R) w := by
  obtain ⟨order, kept, t⟩ := s.split
  have hp : (R.flatMap (·.outs) ++ (w.running.flatMap (·.outs) ++ (q.1.outs ++ fut))).Perm
      (({ q.1 with task := .method h q.2 } :: R).flatMap (·.outs) ++ (w.running.flatMap (·.outs) ++ fut)) := by
    simp only [List.flatMap_cons, List.append_assoc]
    refine List.Perm.trans (List.Perm.append_left _ (List.perm_append_comm_assoc _ _ _)) ?_
    exact List.perm_append_comm_assoc _ _ _
  have ho : ofActor h { q.1 with task := .method h q.2 } = true := ofActor_iff.2 ⟨q.2, rfl⟩
  refine ⟨s.closed, s.coro, hp.nodup_iff.1 s.nodup, fun i hi => s.fresh i (hp.mem_iff.2 hi), order,
    (q, { q.1 with task := .method h q.2 }) :: kept, by simp, ?_, ?_, ?_, t.ran, t.avail, t.state, t.results⟩
  · simp only [List.map_cons]
    refine List.perm_middle.trans ?_
    refine List.Perm.trans (List.Perm.cons _ t.perm) ?_
    exact (List.perm_append_comm (l₁ := [q]))
  · rw [List.filter_cons_of_pos ho, List.map_cons]
    exact List.Perm.cons _ t.held
  · intro x hx
    rcases List.mem_cons.1 hx with rfl | hx
    · exact ⟨rfl, rfl, rfl, hq, rfl, fun i hi => Or.inl hi⟩
    · exact t.waits x hx

theorem Ser.actors_none {W : World} {h : Nat} {calls : List (Request × Nat)} {fut : List Nat} {R : List Request} {w : Worker}
    (s : Ser W h none calls fut R w) : w.actors h = none := by
  obtain ⟨order, kept, t⟩ := s.split
  exact t.state

/-- One operation. -/
theorem Serial.handle {W : World} (hW : NoRefs W) {h : Nat} {st : Option Val} {calls : List (Request × Nat)} {fut : List Nat} {w w' : Worker}
    {m : Msg} (hm : Mild W h (.op m)) (s : Serial W h st calls (writesOf (.op m) ++ fut) w) (hh : w.handle W m = .ok w') :
    Serial W h st (calls ++ callsTo h (.op m)) fut w' := by
  cases m with
  | execute r =>
    obtain ⟨f, hf⟩ := hm
    have hr : ofActor h r = false := by simp [ofActor, hf]
    have s1 := Ser.other hr s
    simp only [callsTo, List.append_nil]
    simp only [Worker.handle] at hh
    split at hh
    · simp at hh
    · rename_i r' w1 h1
      obtain ⟨s2, p2, a2⟩ := Ser.process hW s1 h1
      simp only [Except.ok.injEq] at hh
      subst hh
      refine Ser.congr (w := w1) ?_ rfl rfl rfl rfl
      simp only [p2, a2]
      refine s2.perm ?_
      simp only [Option.toList_some, List.singleton_append, List.append_assoc]
      exact List.perm_middle.symm
    · rename_i w1 h1
      obtain ⟨s2, p2, a2⟩ := Ser.process hW s1 h1
      refine Serial.checkTasks hW ?_ hh
      unfold Serial
      rw [p2, a2]
      exact s2
  | get src id b =>
    simp only [Worker.handle, Except.ok.injEq] at hh
    subst hh
    have hc := core_ext (getRequest_core w src id b)
    simp only [callsTo, List.append_nil]
    unfold Serial
    rw [hc.2.2.2.2.1, hc.2.2.2.2.2.1]
    exact Ser.congr (w := w) s (grow_getRequest w src id b).1 hc.2.2.2.2.2.2.2.1 (by rw [hc.2.2.2.2.2.2.1]) hc.2.2.2.2.2.2.2.2
  | putData id v =>
    simp only [Mild] at hm
    simp only [callsTo, List.append_nil]
    simp only [Worker.handle] at hh
    have hf : w.store id = none := s.fresh id (by simp [writesOf])
    have hle : Le w.store (upd w.store id v) := by
      intro i x hx
      simp only [upd]
      split
      · rename_i e; rw [e, hf] at hx; cases hx
      · exact hx
    have s1 : Serial W h st calls fut { w.put id v with requested := w.requested.filter (· ≠ id) } := by
      obtain ⟨order, kept, t⟩ := s.split
      have hp : ((w.pending ++ w.pendingActor).flatMap (·.outs) ++ (w.running.flatMap (·.outs) ++ (writesOf (.op (.putData id v)) ++ fut))).Perm
          (id :: ((w.pending ++ w.pendingActor).flatMap (·.outs) ++ (w.running.flatMap (·.outs) ++ fut))) := by
        simp only [writesOf, List.singleton_append]
        exact List.Perm.trans (List.Perm.append_left _ List.perm_middle) List.perm_middle
      have hn := List.nodup_cons.1 (hp.nodup_iff.1 s.nodup)
      refine ⟨?_, s.coro, hn.2, fun i hi => ?_, order, kept, t.mono s.closed hle⟩
      · intro i x hx
        simp only [Worker.put, upd] at hx
        split at hx
        · cases hx; exact hm
        · exact s.closed i x hx
      · have : i ≠ id := fun e => hn.1 (e ▸ hi)
        simp only [Worker.put, upd, if_neg this]
        exact s.fresh i (hp.mem_iff.2 (List.mem_cons_of_mem _ hi))
    split at hh
    · simp at hh
    · rename_i w1 h1
      exact (s1.checkTasks hW h1).checkActorTasks hW hh
  | putOwner id o =>
    simp only [Worker.handle, Except.ok.injEq] at hh
    subst hh
    simp only [callsTo, List.append_nil]
    exact Ser.congr (w := w) s rfl rfl rfl rfl
  | actorCreate k v =>
    simp only [Mild] at hm
    simp only [Worker.handle, Except.ok.injEq] at hh
    subst hh
    simp only [callsTo, List.append_nil]
    exact Ser.congr (w := w) s rfl rfl (by simp only [upd]; rw [if_neg (fun e => hm e.symm)]) rfl
  | actorExecute r k name =>
    simp only [Worker.handle] at hh
    have s1 : Ser W h st (calls ++ callsTo h (.op (.actorExecute r k name))) fut
        ({ r with task := .method k name } :: (w.pending ++ w.pendingActor)) w := by
      by_cases e : k = h
      · subst e
        cases st with
        | none => rw [Ser.actors_none s] at hh; simp at hh
        | some v =>
          simp only [callsTo, if_true]
          exact Ser.arrive (q := (r, name)) (hm rfl) s
      · simp only [callsTo, if_neg e, List.append_nil]
        exact Ser.other (r := { r with task := .method k name }) (by simp [ofActor, e]) s
    split at hh
    · simp at hh
    · split at hh
      · simp at hh
      · rename_i r' w1 h1
        obtain ⟨s2, p2, a2⟩ := Ser.process hW s1 h1
        simp only [Except.ok.injEq] at hh
        subst hh
        refine Ser.congr (w := w1) ?_ rfl rfl rfl rfl
        simp only [p2, a2]
        refine s2.perm ?_
        simp only [Option.toList_some, List.singleton_append]
        rw [← List.append_assoc]
        exact (List.perm_append_comm (l₁ := [r']))
      · rename_i w1 h1
        obtain ⟨s2, p2, a2⟩ := Ser.process hW s1 h1
        refine Serial.checkActorTasks hW ?_ hh
        unfold Serial
        rw [p2, a2]
        exact s2
  | data id v =>
    simp only [Worker.handle, Except.ok.injEq] at hh
    subst hh
    simpa [callsTo, writesOf] using s
  | taskDone ids =>
    simp only [Worker.handle, Except.ok.injEq] at hh
    subst hh
    simpa [callsTo, writesOf] using s

/-- The end of a coroutine. -/
theorem Serial.complete {W : World} {h : Nat} {st : Option Val} {calls : List (Request × Nat)} {fut : List Nat} {w : Worker} (i : Nat)
    (s : Serial W h st calls fut w) : Serial W h st calls fut (w.complete i) := by
  obtain ⟨e1, e2, e3, e4⟩ := complete_actor w i
  unfold Serial
  rw [e3, e4]
  obtain ⟨order, kept, t⟩ := s.split
  simp only [Worker.complete] at e1 e2 ⊢
  cases hc : w.running[i]? with
  | none => exact s
  | some c =>
    simp only [hc] at e1 e2 ⊢
    have hcm : c ∈ w.running := List.mem_of_getElem? hc
    have hlen := (List.getElem?_eq_some_iff.1 hc).1
    have hget := (List.getElem?_eq_some_iff.1 hc).2
    have hpr : w.running.Perm (c :: w.running.eraseIdx i) := by
      have h1 : w.running = w.running.take i ++ c :: w.running.drop (i + 1) := by
        rw [← hget, List.getElem_cons_drop hlen, List.take_append_drop]
      rw [List.eraseIdx_eq_take_drop_succ]
      conv => lhs; rw [h1]
      exact List.perm_middle
    have hp : ((w.pending ++ w.pendingActor).flatMap (·.outs) ++ (w.running.flatMap (·.outs) ++ fut)).Perm
        (c.outs ++ ((w.pending ++ w.pendingActor).flatMap (·.outs) ++ ((w.running.eraseIdx i).flatMap (·.outs) ++ fut))) := by
      refine List.Perm.trans (List.Perm.append_left _ (List.Perm.append_right _ (hpr.flatMap_right _))) ?_
      simp only [List.flatMap_cons, List.append_assoc]
      exact List.perm_append_comm_assoc _ _ _
    obtain ⟨n1, n2, n3⟩ := List.nodup_append.1 (hp.nodup_iff.1 s.nodup)
    have hfr : ∀ j ∈ c.outs ++ ((w.pending ++ w.pendingActor).flatMap (·.outs) ++ ((w.running.eraseIdx i).flatMap (·.outs) ++ fut)),
        w.store j = none := fun j hj => s.fresh j (hp.mem_iff.2 hj)
    have hrun := (core_ext (finishAsync_core { w with running := w.running.eraseIdx i } c.outs c.result)).2.2.2.2.2.2.2.1
    have hcr : ∀ c' ∈ w.running.eraseIdx i, ∀ v, c'.result = .ret v → refs v = [] :=
      fun c' hc' => s.coro c' (List.mem_of_mem_eraseIdx hc')
    have hst : (Worker.finishAsync { w with running := w.running.eraseIdx i } c.outs c.result).store = w.store ∨
        (Worker.finishAsync { w with running := w.running.eraseIdx i } c.outs c.result).store = extend w.store (outputValues c.outs c.result) := by
      simp only [Worker.finishAsync]
      split
      · exact Or.inl rfl
      · rename_i l k ho
        refine Or.inr ?_
        rw [← outputs_eq ho]
        split
        · simp only [Worker.send]; rw [(checkGets_static c.outs _).1, putAll_extend]
        · rw [(checkGets_static c.outs _).1, putAll_extend]
    have hsub := outputValues_keys c.outs c.result
    obtain ⟨x1, x2, x3⟩ := extend_fresh (outputValues c.outs c.result) w.store (hsub.nodup n1)
      (fun p hp => hfr _ (List.mem_append_left _ (hsub.subset (List.mem_map_of_mem hp))))
    rcases hst with hst | hst
    · exact ⟨by rw [hst]; exact s.closed, by rw [hrun]; exact hcr, by rw [hrun]; exact n2,
        fun j hj => by rw [hst]; rw [hrun] at hj; exact hfr j (List.mem_append_right _ hj),
        order, kept, by rw [hst, e1, e2]; exact t⟩
    · refine ⟨by rw [hst]; exact closed_extend s.closed _ (outputValues_closed _ _ (s.coro c hcm)), by rw [hrun]; exact hcr,
        by rw [hrun]; exact n2, fun j hj => ?_, order, kept, by rw [hst, e1, e2]; exact t.mono s.closed x1⟩
      rw [hrun] at hj
      rw [hst, x3 j (fun hc => n3 j (hsub.subset hc) j hj rfl)]
      exact hfr j (List.mem_append_right _ hj)

/-- A history. -/
theorem Serial.run {W : World} (hW : NoRefs W) {h : Nat} {st : Option Val} : ∀ (es : List Event) {calls : List (Request × Nat)} {fut : List Nat}
    {w w' : Worker}, (∀ e ∈ es, Mild W h e) → Serial W h st calls (es.flatMap writesOf ++ fut) w → w.run W es = .ok w' →
      Serial W h st (calls ++ es.flatMap (callsTo h)) fut w'
  | [], calls, fut, w, w', _, s, hr => by
      simp only [Worker.run, Except.ok.injEq] at hr
      subst hr
      simpa using s
  | .op m :: es, calls, fut, w, w', he, s, hr => by
      simp only [Worker.run] at hr
      split at hr
      · simp at hr
      · rename_i w1 h1
        have s1 := Serial.handle hW (he _ List.mem_cons_self) (fut := es.flatMap writesOf ++ fut) (by simpa using s) h1
        simpa using Serial.run hW es (fun e h => he e (List.mem_cons_of_mem _ h)) s1 hr
  | .complete i :: es, calls, fut, w, w', he, s, hr => by
      simp only [Worker.run] at hr
      have s1 : Serial W h st calls (es.flatMap writesOf ++ fut) (w.complete i) := Serial.complete i (by simpa [writesOf] using s)
      simpa [callsTo] using Serial.run hW es (fun e h => he e (List.mem_cons_of_mem _ h)) s1 hr

end Verif.Worker
