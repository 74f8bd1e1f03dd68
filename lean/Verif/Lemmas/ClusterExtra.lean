import Verif.Lemmas.ClusterRun

/-! Further facts about runs: who sends, which `get` calls were made, which errors can end a worker. -/
namespace Verif.Cluster
open Verif.Spec
open Verif.Worker

/-- Processes other than the main process and the workers send nothing. -/
theorem senders_step {W : World} {isW : Nat → Bool} {c c' : Cluster} {a : Act}
    (h : ∀ s d, s ≠ 0 → isW s = false → c.chan s d = []) (hs : c.step W isW a = some (.ok c')) :
    ∀ s d, s ≠ 0 → isW s = false → c'.chan s d = [] := by
  intro s d h0 hw
  have hold := h s d h0 hw
  cases a with
  | put v =>
    simp only [Cluster.step] at hs
    split at hs
    · simp at hs
    · simp only [Option.some.injEq, Except.ok.injEq] at hs
      subst hs
      exact hold
  | submit fn args n dest =>
    simp only [Cluster.step] at hs
    split at hs
    · simp at hs
    · split at hs
      · simp at hs
      · split at hs
        · simp at hs
        · simp only [Option.some.injEq, Except.ok.injEq] at hs
          subst hs
          simp only
          rw [sendAll_other _ _ _ h0]; exact hold
  | get ids =>
    simp only [Cluster.step] at hs
    split at hs
    · simp at hs
    · split at hs
      · simp only [Option.some.injEq, Except.ok.injEq] at hs
        subst hs
        exact hold
      · split at hs
        · simp only [Option.some.injEq, Except.ok.injEq] at hs
          subst hs
          simp only
          rw [sendAll_other _ _ _ h0]; exact hold
        · simp at hs
  | reply src =>
    simp only [Cluster.step] at hs
    split at hs
    · rename_i hc
      split at hs
      · simp only [Option.some.injEq, Except.ok.injEq] at hs
        subst hs
        simp only
        split
        · rename_i hsd
          obtain ⟨rfl, rfl⟩ := hsd
          rw [hold] at hc
          simp at hc
        · exact hold
      · simp at hs
    · simp at hs
  | deliver src dst =>
    simp only [Cluster.step] at hs
    split at hs
    · rename_i hd
      split at hs
      · simp at hs
      · rename_i k t hc
        split at hs
        · simp at hs
        · simp only [Option.some.injEq, Except.ok.injEq] at hs
          subst hs
          simp only [Cluster.flush]
          rw [sendAll_other]
          · split
            · rename_i hsd
              obtain ⟨rfl, rfl⟩ := hsd
              rw [hold] at hc
              simp at hc
            · exact hold
          · rintro rfl
            rw [hd] at hw; simp at hw
    · simp at hs
  | complete w i =>
    simp only [Cluster.step] at hs
    split at hs
    · rename_i hd
      simp only [Option.some.injEq, Except.ok.injEq] at hs
      subst hs
      simp only [Cluster.flush]
      rw [sendAll_other]
      · exact hold
      · rintro rfl
        rw [hd.1] at hw; simp at hw
    · simp at hs

theorem senders_run {W : World} {isW : Nat → Bool} : ∀ (acts : List Act) {c c' : Cluster},
    (∀ s d, s ≠ 0 → isW s = false → c.chan s d = []) → c.run W isW acts = some c' →
    ∀ s d, s ≠ 0 → isW s = false → c'.chan s d = []
  | [], c, c', h, hr => by
    simp only [Cluster.run, Option.some.injEq] at hr
    subst hr
    exact h
  | a :: as, c, c', h, hr => by
    simp only [Cluster.run] at hr
    split at hr
    · rename_i c1 hs
      exact senders_run as (senders_step h hs) hr
    · simp at hr

/-- The lists of the finished and the running `get` calls. -/
def started (r : Root) : List (List Nat) := r.results.map (·.1) ++ (r.waiting.map (·.ids)).toList

theorem pushed_started {dest : Nat} {ids : List Nat} {r r' : Root} {l : List (Nat × Msg)} (h : Pushed dest ids r r' l) :
    r'.results = r.results ∧ r'.waiting = r.waiting := by
  rw [h.same]; exact ⟨rfl, rfl⟩

theorem gets_step {W : World} {isW : Nat → Bool} {c c' : Cluster} {a : Act} (hs : c.step W isW a = some (.ok c')) :
    started c'.root = started c.root ++ getsOf [a] := by
  cases a with
  | put v =>
    simp only [Cluster.step] at hs
    split at hs
    · simp at hs
    · simp only [Option.some.injEq, Except.ok.injEq] at hs
      subst hs
      simp [started, getsOf]
  | submit fn args n dest =>
    simp only [Cluster.step] at hs
    split at hs
    · simp at hs
    · split at hs
      · simp at hs
      · rename_i r1 l1 p1
        split at hs
        · simp at hs
        · rename_i r2 l2 p2
          simp only [Option.some.injEq, Except.ok.injEq] at hs
          subst hs
          have := pushed_started ((pushRef_spec p1).trans (pushList_spec args p2))
          simp [started, getsOf, Root.genOuts, this]
  | get ids =>
    simp only [Cluster.step] at hs
    split at hs
    · simp at hs
    · rename_i hw
      have hw' : c.root.waiting = none := by simpa using hw
      split at hs
      · simp only [Option.some.injEq, Except.ok.injEq] at hs
        subst hs
        simp [started, getsOf, Root.finishGet, hw']
      · split at hs
        · simp only [Option.some.injEq, Except.ok.injEq] at hs
          subst hs
          simp [started, getsOf, hw']
        · simp at hs
  | reply src =>
    simp only [Cluster.step] at hs
    split at hs
    · rename_i wt id v t hw hc
      split at hs
      · simp only [Option.some.injEq, Except.ok.injEq] at hs
        subst hs
        simp only
        split
        · simp [started, getsOf, Root.finishGet, hw]
        · simp [started, getsOf, hw]
      · simp at hs
    · simp at hs
  | deliver src dst =>
    simp only [Cluster.step] at hs
    split at hs
    · split at hs
      · simp at hs
      · split at hs
        · simp at hs
        · simp only [Option.some.injEq, Except.ok.injEq] at hs
          subst hs
          simp [started, getsOf, Cluster.flush]
    · simp at hs
  | complete w i =>
    simp only [Cluster.step] at hs
    split at hs
    · simp only [Option.some.injEq, Except.ok.injEq] at hs
      subst hs
      simp [started, getsOf, Cluster.flush]
    · simp at hs

theorem gets_run {W : World} {isW : Nat → Bool} : ∀ (acts : List Act) {c c' : Cluster}, c.run W isW acts = some c' →
    started c'.root = started c.root ++ getsOf acts
  | [], c, c', hr => by
    simp only [Cluster.run, Option.some.injEq] at hr
    subst hr
    simp [getsOf]
  | a :: as, c, c', hr => by
    simp only [Cluster.run] at hr
    split at hr
    · rename_i c1 hs
      rw [gets_run as hr, gets_step hs]
      cases a <;> simp [getsOf]
    · simp at hr

end Verif.Cluster

namespace Verif.Worker
open Verif.Spec

/-- The errors that user code can cause: a failing task without outputs, a result that cannot be distributed over several
outputs. -/
def UserError (x : Ctx) (e : Crash) : Prop :=
  (e = .putNone ∧ ∃ s ∈ x.subs, s.outs = [] ∧ ∃ k, taskResult x.W x.D s.fn s.args = some (.raise k)) ∨
  (e = .notIterable ∧ ∃ s ∈ x.subs, 2 ≤ s.outs.length ∧ ∃ v, taskResult x.W x.D s.fn s.args = some (.ret v) ∧
    ∀ vs, v ≠ .list vs)

theorem outputs_error {outs : List Nat} {r : Ret} {e : Crash} (h : outputs outs r = .error e) :
    (e = .putNone ∧ outs = [] ∧ ∃ k, r = .raise k) ∨
    (e = .notIterable ∧ 2 ≤ outs.length ∧ ∃ v, r = .ret v ∧ ∀ vs, v ≠ .list vs) := by
  cases r with
  | raise k =>
    cases outs with
    | nil => simp only [outputs, Except.error.injEq] at h; exact Or.inl ⟨h.symm, rfl, k, rfl⟩
    | cons a t => simp [outputs] at h
  | ret v =>
    match outs with
    | [] => simp [outputs] at h
    | [o] => simp [outputs] at h
    | a :: b :: t =>
      cases v with
      | list vs => simp [outputs] at h
      | _ => simp only [outputs, Except.error.injEq] at h; exact Or.inr ⟨h.symm, by simp, _, rfl, by simp⟩

theorem execute_error {W : World} {w : Worker} {r : Request} {args : List Val} {e : Crash}
    (h : w.execute W r args = .error e) :
    outputs r.outs (Worker.evaluate W { w with log := w.log ++ [{ r with args := args }] } r.task args).1 = .error e := by
  simp only [Worker.execute] at h
  split at h
  · simp at h
  · simp only [Worker.finish] at h
    split at h
    · rename_i k hk
      simp only [Except.error.injEq] at h
      subst h
      exact hk
    · simp at h

theorem process_error {x : Ctx} (hx : x.OK) {d : Nat} {s0 : List (Nat × Nat)} {w : Worker} (h : WI x d s0 w) {r : Request}
    (hr : Ready x d w r) {e : Crash} (hp : w.process x.W r = .error e) : UserError x e := by
  have hr0 := hr
  obtain ⟨⟨s, -, -, c3, -⟩, hk, hf⟩ := hr
  obtain ⟨w1, m1, a1⟩ := materializeList_spec r.args w false (h.closed hx) hk
  have hkn : w.known r.task = true := by
    rw [c3]; exact Option.isSome_iff_ne_none.2 (hf s.fn c3)
  simp only [Worker.process, hkn, if_true, m1] at hp
  cases hb : Missing w (refsList r.args) with
  | true => simp [hb] at hp
  | false =>
    simp only [hb, Bool.or_false] at hp
    split at hp
    · simp at hp
    · rename_i he
      simp only [Except.error.injEq] at hp
      subst hp
      have hm : ∀ i ∈ refsList r.args, w.store i ≠ none := by
        intro i hi hc
        simp only [Missing, List.any_eq_false] at hb
        have := hb i hi
        simp [hc] at this
      obtain ⟨s', q1, q2, q3, q4⟩ := ready_result h.store hr0 hm
      have q4 := q4 { w1 with log := w1.log ++ [{ r with args := substList w.store r.args }] } a1.store
      have hs : s' ∈ x.subs := List.mem_of_getElem? q1
      rcases outputs_error (execute_error he) with ⟨g1, g2, k, g3⟩ | ⟨g1, g2, v, g3, g4⟩
      · exact Or.inl ⟨g1, s', hs, by rw [← q3]; exact g2, k, by rw [q4, g3]⟩
      · exact Or.inr ⟨g1, s', hs, by rw [← q3]; exact g2, v, by rw [q4, g3], g4⟩

theorem processAll_error {x : Ctx} (hx : x.OK) {d : Nat} {s0 : List (Nat × Nat)} : ∀ (rs : List Request) {w : Worker}
    {e : Crash}, WI x d s0 w → (∀ r ∈ rs, Ready x d w r) → w.processAll x.W rs = .error e → UserError x e
  | [], w, e, h, hr, hp => by simp [Worker.processAll] at hp
  | r :: rs, w, e, h, hr, hp => by
    simp only [Worker.processAll] at hp
    split at hp
    · rename_i e' h1
      simp only [Except.error.injEq] at hp
      subst hp
      exact process_error hx h (hr r (by simp)) h1
    · rename_i o w1 h1
      obtain ⟨i1, g1, -⟩ := wi_process hx h (hr r (by simp)) h1
      split at hp
      · rename_i e' h2
        simp only [Except.error.injEq] at hp
        subst hp
        exact processAll_error hx rs i1 (fun q hq => ready_grow g1 (hr q (List.mem_cons_of_mem _ hq))) h2
      · simp at hp

theorem handle_error {x : Ctx} (hx : x.OK) {s d : Nat} {s0 : List (Nat × Nat)} {w : Worker}
    (h : WI x d s0 w) (hp : ∀ r ∈ w.pending, Ready x d w r) {m : Msg} (hm : MsgOK x s d m)
    (ha : Arrives (fun i => w.store i ≠ none ∨ w.owner i ≠ none) (fun i => w.store i ≠ none) m) {e : Crash}
    (hh : w.handle x.W m = .error e) : UserError x e := by
  cases m with
  | execute r =>
    have hr : Ready x d w r := ⟨hm.2, ha.1, ha.2⟩
    simp only [Worker.handle] at hh
    split at hh
    · rename_i e' h1
      simp only [Except.error.injEq] at hh
      subst hh
      exact process_error hx h hr h1
    · simp at hh
    · rename_i w1 h1
      obtain ⟨i1, g1, -⟩ := wi_process hx h hr h1
      have hpe : w1.pending = w.pending := by
        obtain ⟨⟨su, -, -, c3, -⟩, hk, hf⟩ := hr
        rcases process_spec c3 (hf _ c3) (h.closed hx) hk h1 with ⟨ho, -, -⟩ | ⟨-, -, he⟩
        · simp at ho
        · exact (executed_fn c3 he).2.1
      simp only [Worker.checkTasks] at hh
      split at hh
      · rename_i e' h2
        simp only [Except.error.injEq] at hh
        subst hh
        exact processAll_error hx _ i1 (fun q hq => ready_grow g1 (hp q (by rw [← hpe]; exact hq))) h2
      · simp at hh
  | get src id b => simp [Worker.handle] at hh
  | putData id v =>
    obtain ⟨m1, -⟩ := hm
    simp only [Worker.handle] at hh
    have i0 : WI x d s0 { w.put id v with requested := w.requested.filter (· ≠ id) } := by
      refine ⟨h.rank, h.monitor, ?_, h.owner, h.nb, h.b, h.act, h.run, h.log, h.out, h.sent, h.nodup⟩
      intro i u hu
      simp only [Worker.put, upd] at hu
      split at hu
      · rename_i hi
        subst hi
        rw [m1, hu]
      · exact h.store i u hu
    have hp0 : ∀ q ∈ w.pending, Ready x d { w.put id v with requested := w.requested.filter (· ≠ id) } q := by
      refine fun q hq => ready_grow (w := w) ⟨?_, rfl⟩ (hp q hq)
      intro i hi
      simp only [Worker.put, upd]
      split
      · simp
      · exact hi
    split at hh
    · rename_i e' h1
      simp only [Except.error.injEq] at hh
      subst hh
      simp only [Worker.checkTasks] at h1
      split at h1
      · rename_i e' h2
        simp only [Except.error.injEq] at h1
        subst h1
        exact processAll_error hx _ i0 hp0 h2
      · simp at h1
    · rename_i w1 h1
      obtain ⟨i2, -, -⟩ := wi_checkTasks hx i0 hp0 h1
      rw [checkActorTasks_nil _ _ i2.act] at hh
      simp at hh
  | putOwner id o => simp [Worker.handle] at hh
  | actorCreate _ _ => exact absurd hm id
  | actorExecute _ _ _ => exact absurd hm id
  | data id v => simp [Worker.handle] at hh
  | taskDone ids => simp [Worker.handle] at hh

end Verif.Worker
