import Verif.Lemmas.Wait

/-! Properties of `wait` (C39, C40). -/
namespace Verif.Wait
open Verif.Worker (Ret Val outputs)

/-- A task with outputs `outs` and result `r` has computed reference `i`: it returned, and a value for the reference is
among what it returned. -/
def Computed (outs : List Nat) (r : Ret) (i : Nat) : Prop :=
  ∃ v, r = .ret v ∧ (outs = [i] ∨ (2 ≤ outs.length ∧ ∃ (vs : List Val) (k : Nat), v = .list vs ∧ outs[k]? = some i ∧ k < vs.length))

theorem outputs_iff {outs : List Nat} {r : Ret} {l : List (Nat × Val)} {c : List (Option Nat)} (h : outputs outs r = .ok (l, c))
    (i : Nat) : some i ∈ c ↔ Computed outs r i := by
  cases r with
  | raise e =>
    simp only [outputs] at h
    split at h
    · simp at h
    · simp only [Except.ok.injEq, Prod.mk.injEq] at h
      obtain ⟨-, rfl⟩ := h
      simp [Computed]
  | ret v =>
    simp only [outputs] at h
    split at h
    · simp only [Except.ok.injEq, Prod.mk.injEq] at h
      obtain ⟨-, rfl⟩ := h
      simp [Computed]
    · simp only [Except.ok.injEq, Prod.mk.injEq] at h
      obtain ⟨-, rfl⟩ := h
      simp [Computed, eq_comm]
    · rename_i hne1 hne2
      cases v with
      | list vs =>
        simp only [Except.ok.injEq, Prod.mk.injEq] at h
        obtain ⟨-, rfl⟩ := h
        rw [List.mem_mapIdx]
        have hlen : 2 ≤ outs.length := by
          match outs, hne1, hne2 with
          | [], h1, _ => exact absurd rfl h1
          | [a], _, h2 => exact absurd rfl (h2 a)
          | _ :: _ :: _, _, _ => simp
        constructor
        · rintro ⟨k, hk, he⟩
          split at he
          · rename_i hkl
            simp only [Option.some.injEq] at he
            exact ⟨_, rfl, Or.inr ⟨hlen, vs, k, rfl, by rw [List.getElem?_eq_getElem hk, he], hkl⟩⟩
          · simp at he
        · rintro ⟨v, hv, ho | ⟨-, vs', k, hv', hk, hkl⟩⟩
          · rw [ho] at hlen; simp at hlen
          · simp only [Ret.ret.injEq] at hv
            subst hv
            simp only [Val.list.injEq] at hv'
            subst hv'
            obtain ⟨h1, h2⟩ := List.getElem?_eq_some_iff.1 hk
            exact ⟨k, h1, by rw [if_pos hkl, h2]⟩
      | _ => simp at h

theorem reported_iff {acts : List Act} {i : Nat} (h : ∀ outs r, Act.finish outs r ∈ acts → ∃ p, outputs outs r = .ok p) :
    some i ∈ reported acts ↔ ∃ outs r, Act.finish outs r ∈ acts ∧ Computed outs r i := by
  simp only [reported, List.mem_flatMap]
  constructor
  · rintro ⟨a, ha, hm⟩
    cases a with
    | finish outs r =>
      simp only at hm
      cases ho : outputs outs r with
      | error e => rw [ho] at hm; simp at hm
      | ok p => rw [ho] at hm; exact ⟨outs, r, ha, (outputs_iff ho i).1 hm⟩
    | _ => simp at hm
  · rintro ⟨outs, r, ha, hc⟩
    obtain ⟨⟨l, c⟩, ho⟩ := h outs r ha
    exact ⟨_, ha, by simp only [ho]; exact (outputs_iff ho i).2 hc⟩

theorem mem_stored {acts : List Act} {i : Nat} : i ∈ stored acts ↔ Act.store i ∈ acts := by
  simp only [stored, List.mem_filterMap]
  constructor
  · rintro ⟨a, ha, hm⟩
    cases a with
    | store j => simp only [Option.some.injEq] at hm; subst hm; exact ha
    | _ => simp at hm
  · intro h; exact ⟨_, h, rfl⟩

theorem run_finish : ∀ (acts : List Act) {s s' : State}, s.run acts = some s' →
    ∀ outs r, Act.finish outs r ∈ acts → ∃ p, outputs outs r = .ok p
  | a :: as, s, s', hr, outs, r, hm => by
    simp only [State.run] at hr
    split at hr
    · rename_i s1 hs
      rw [List.mem_cons] at hm
      rcases hm with rfl | hm
      · simp only [State.step] at hs
        cases ho : outputs outs r with
        | error e => rw [ho] at hs; simp at hs
        | ok p => exact ⟨p, rfl⟩
      · exact run_finish as hr outs r hm
    · simp at hr

end Verif.Wait

namespace Verif.Props
open Verif.Wait
open Verif.Worker (Ret Val)

/-! ## C39 wait returns a correct partition -/

/-- Every `wait` that returned gave a partition of its list with `num_returns` ready references, and every ready
reference had been stored by the main process or computed by a task. -/
theorem C39_partition (acts : List Act) (s : State) (hrun : State.init.run acts = some s) (ids : List Nat) (num : Int)
    (ready notReady : List Nat) (h : (ids, num, ready, notReady) ∈ s.results) :
    (ready ++ notReady).Perm ids ∧ (ready.length : Int) = num ∧
    ∀ i ∈ ready, Act.store i ∈ acts ∨ ∃ outs r, Act.finish outs r ∈ acts ∧ Computed outs r i := by
  have hi := (inv_run acts [] inv_init hrun).results ids num ready notReady h
  rw [List.nil_append] at hi
  refine ⟨hi.1, hi.2.1, fun i hm => ?_⟩
  rcases hi.2.2 i hm with h1 | h1
  · exact Or.inl (mem_stored.1 h1)
  · exact Or.inr ((reported_iff (run_finish acts hrun)).1 h1)

/-- Four references, one of them put by the main process; two are asked for and tasks finish in another order. -/
def exWait : List Act :=
  [.store 3, .wait [1, 2, 3, 4] 2, .finish [4] (.ret (.data 0)), .report 0, .request, .finish [1, 2] (.ret (.list [.data 1, .data 2])),
   .report 0, .reply]

example : (State.init.run exWait).map (·.results) = some [([1, 2, 3, 4], 2, [3, 4], [1, 2])] := by decide +kernel

/-- A duplicate reference is counted twice. -/
example : (State.init.run [.wait [1, 1, 2] 2, .request, .finish [1] (.ret (.data 0)), .report 0, .reply]).map (·.results) =
    some [([1, 1, 2], 2, [1, 1], [2])] := by decide +kernel

/-! ## C40 wait returns once enough tasks have finished -/

/-- The reference was stored by the main process or its task has finished, successfully or not. -/
def Finished (acts : List Act) (i : Nat) : Prop := Act.store i ∈ acts ∨ ∃ outs r, Act.finish outs r ∈ acts ∧ i ∈ outs

/-- When no message is under way, no `wait` is in progress of whose references at least `num_returns` (or all) are
finished. -/
def C40_full : Prop := ∀ (acts : List Act) (s : State) (c : Call), State.init.run acts = some s →
  s.request = none → s.reports = [] → s.replies = [] → s.call = some c → 0 ≤ c.num →
  ∀ fin : List Nat, fin.Sublist c.ids → (∀ i ∈ fin, Finished acts i) → (fin.length : Int) < c.num ∧ fin.length < c.ids.length

theorem never_returns (acts : List Act) (c : Call) (hw : (State.init.run acts).map (fun s => (s.call, s.request.isNone, s.reports.isEmpty, s.replies.isEmpty)) =
    some (some c, true, true, true)) (h0 : 0 ≤ c.num) (fin : List Nat) (hs : fin.Sublist c.ids) (hf : ∀ i ∈ fin, Finished acts i)
    (hn : ¬ ((fin.length : Int) < c.num ∧ fin.length < c.ids.length)) : ¬ C40_full := by
  intro h
  obtain ⟨s, hrun, hc⟩ := Option.map_eq_some_iff.1 hw
  simp only [Prod.mk.injEq, Option.isNone_iff_eq_none, List.isEmpty_iff] at hc
  exact hn (h acts s c hrun hc.2.1 hc.2.2.1 hc.2.2.2 hc.1 h0 fin hs hf)

/-- A task that failed is reported with an empty list, so `wait` for it does not return. -/
theorem C40_failed_violated : ¬ C40_full :=
  never_returns [.finish [1] (.raise 0), .wait [1] 1, .report 0, .request] ⟨[1], 1, [], [1]⟩ (by decide +kernel) (by decide) [1]
    (by simp) (by intro i hi; exact Or.inr ⟨[1], .raise 0, by simp, hi⟩) (by decide)

/-- `num_returns = 0` never returns. -/
theorem C40_zero_violated : ¬ C40_full :=
  never_returns [.finish [1] (.ret (.data 0)), .wait [1] 0, .report 0, .request] ⟨[1], 0, [], [1]⟩ (by decide +kernel) (by decide) []
    (by simp) (by simp) (by decide)

/-- `num_returns` larger than the number of references never returns, even if all are ready. -/
theorem C40_many_violated : ¬ C40_full :=
  never_returns [.store 1, .wait [1] 2, .request] ⟨[1], 2, [1], []⟩ (by decide +kernel) (by decide) [1]
    (by simp) (by intro i hi; simp only [List.mem_singleton] at hi; subst hi; exact Or.inl (by simp)) (by decide)

/-- What holds: with `num_returns` at least 1, if no message is under way and a `wait` is in progress then fewer than
`num_returns` of its references were stored locally or computed. Missing: failed tasks, `num_returns` 0 and `num_returns`
larger than the list (violated; `C40_exact_partial` says that these are all). -/
theorem C40_succeeded_partial (acts : List Act) (s : State) (c : Call) (hrun : State.init.run acts = some s)
    (h1 : s.request = none) (h2 : s.reports = []) (h3 : s.replies = []) (hc : s.call = some c) (hn : 1 ≤ c.num)
    (fin : List Nat) (hs : fin.Sublist c.ids)
    (hf : ∀ i ∈ fin, Act.store i ∈ acts ∨ ∃ outs r, Act.finish outs r ∈ acts ∧ Computed outs r i) :
    (fin.length : Int) < c.num := by
  have h := inv_run acts [] inv_init hrun
  rw [List.nil_append] at h
  obtain ⟨a1, a0, a2, a3, a4, a5⟩ := h.call c hc
  rcases a5 with ⟨b1, -⟩ | ⟨b1, b2, b3, b4, b5, b6, b7⟩ | ⟨b1, r, a, b2, -⟩
  · rw [h1] at b1; simp at b1
  · -- every element of `fin` is in the ready lists
    have hin : ∀ i ∈ fin, i ∉ s.monitor.awaited := by
      intro i hi haw
      rcases hf i hi with hf | hf
      · have h1 := (h.has i).2 (mem_stored.2 hf)
        have h2 := a0 i ((b4.mem_iff).1 (List.mem_append_right _ haw))
        rw [h1] at h2; simp at h2
      · have := (h.comp i).2 ((reported_iff (run_finish acts hrun)).2 hf)
        rw [h2] at this
        rcases this with h' | ⟨r, hr, -⟩
        · exact b5 i haw h'
        · simp at hr
    have hperm : (c.ready ++ s.monitor.ready ++ s.monitor.awaited).Perm c.ids := by
      rw [List.append_assoc]
      exact (List.Perm.append_left _ b4).trans a4
    -- count
    have hready : (c.ready.length + s.monitor.ready.length : Nat) < c.num := by
      have x1 : ∀ k : Nat, k ≤ c.ready.length + s.monitor.ready.length → (k : Int) < c.num := by
        intro k
        induction k with
        | zero => intro _; omega
        | succ k ih =>
          intro hk
          have := ih (by omega)
          by_cases hkk : k + 1 ≤ c.ready.length
          · have := a3 (k + 1) (by omega) hkk
            omega
          · have := b7 (k + 1 - c.ready.length) (by omega) (by omega)
            rw [b3] at this
            omega
      exact x1 _ (Nat.le_refl _)
    have hle : fin.length ≤ c.ready.length + s.monitor.ready.length := by
      have e1 : fin.filter (fun i => decide (i ∉ s.monitor.awaited)) = fin :=
        List.filter_eq_self.2 (fun i hi => by simpa using hin i hi)
      have e2 := (hs.filter (fun i => decide (i ∉ s.monitor.awaited))).length_le
      rw [e1, ← (hperm.filter (fun i => decide (i ∉ s.monitor.awaited))).length_eq, List.filter_append] at e2
      have e3 : s.monitor.awaited.filter (fun i => decide (i ∉ s.monitor.awaited)) = [] :=
        List.filter_eq_nil_iff.2 (fun i hi => by simpa using hi)
      rw [e3, List.append_nil] at e2
      have := List.length_filter_le (fun i => decide (i ∉ s.monitor.awaited)) (c.ready ++ s.monitor.ready)
      rw [List.length_append] at this
      omega
    omega
  · rw [h3] at b2; simp at b2

private theorem loop_pos : ∀ (f i : Nat) (m : Monitor), ∀ r ∈ (Monitor.loop f i m).2, r.1 ≠ []
  | 0, _, _, r, hr => by simp [Monitor.loop] at hr
  | f + 1, i, m, r, hr => by
    simp only [Monitor.loop] at hr
    split at hr
    · simp at hr
    · split at hr
      · split at hr
        · simp only [List.mem_cons] at hr
          rcases hr with rfl | hr
          · simp
          · exact loop_pos f _ _ r hr
        · exact loop_pos f _ _ r hr
      · exact loop_pos f _ _ r hr

private theorem process_pos (m : Monitor) : ∀ r ∈ m.process.2, r.1 ≠ [] := by
  intro r hr
  simp only [Monitor.process] at hr
  split at hr
  · simp at hr
  · exact loop_pos _ _ _ r hr

private theorem localLoop_pos (has : Nat → Bool) (num : Int) : ∀ (l ready nr : List Nat),
    (localLoop has num l ready nr).1 = true → (localLoop has num l ready nr).2.1 ≠ []
  | [], ready, nr, h => by simp [localLoop] at h
  | id :: rest, ready, nr, h => by
    simp only [localLoop] at h ⊢
    split
    · split
      · simp
      · rename_i h1 h2
        rw [if_pos h1, if_neg h2] at h
        exact localLoop_pos has num rest _ _ h
    · rename_i h1
      rw [if_neg h1] at h
      exact localLoop_pos has num rest _ _ h

/-- Nothing is reported and nothing returned without a ready reference. -/
private def Pos (s : State) : Prop := (∀ r ∈ s.replies, r.1 ≠ []) ∧ ∀ x ∈ s.results, x.2.2.1 ≠ []

private theorem pos_step {s s' : State} {a : Act} (h : Pos s) (hs : s.step a = some s') : Pos s' := by
  obtain ⟨h1, h2⟩ := h
  cases a with
  | store id =>
    simp only [State.step] at hs
    split at hs
    · simp at hs
    · cases hs; exact ⟨h1, h2⟩
  | finish outs r =>
    simp only [State.step] at hs
    split at hs
    · simp at hs
    · cases hs; exact ⟨h1, h2⟩
  | report k =>
    simp only [State.step] at hs
    split at hs
    · simp at hs
    · cases hs
      refine ⟨fun r hr => ?_, h2⟩
      rcases List.mem_append.1 hr with hr | hr
      · exact h1 r hr
      · exact process_pos _ r hr
  | wait ids num =>
    simp only [State.step] at hs
    split at hs
    · simp at hs
    · have hp := localLoop_pos s.has num ids [] ids
      split at hs
      · rename_i ready notReady he
        rw [he] at hp
        cases hs
        refine ⟨h1, fun x hx => ?_⟩
        rcases List.mem_append.1 hx with hx | hx
        · exact h2 x hx
        · rw [List.mem_singleton.1 hx]; exact hp rfl
      · cases hs; exact ⟨h1, h2⟩
  | request =>
    simp only [State.step] at hs
    split at hs
    · simp at hs
    · cases hs
      refine ⟨fun r hr => ?_, h2⟩
      rcases List.mem_append.1 hr with hr | hr
      · exact h1 r hr
      · exact process_pos _ r hr
  | reply =>
    simp only [State.step] at hs
    split at hs
    · rename_i c ready notReady t hc hr
      cases hs
      rw [hr] at h1
      refine ⟨fun r hm => h1 r (List.mem_cons_of_mem _ hm), fun x hx => ?_⟩
      rcases List.mem_append.1 hx with hx | hx
      · exact h2 x hx
      · rw [List.mem_singleton.1 hx]
        have := h1 _ (List.mem_cons_self)
        simp only [ne_eq, List.append_eq_nil_iff, not_and]
        exact fun _ => this
    · simp at hs

private theorem pos_run : ∀ (acts : List Act) {s s' : State}, Pos s → s.run acts = some s' → Pos s'
  | [], s, s', h, hr => by simp only [State.run, Option.some.injEq] at hr; rw [← hr]; exact h
  | a :: as, s, s', h, hr => by
    simp only [State.run] at hr
    split at hr
    · rename_i s1 hs; exact pos_run as (pos_step h hs) hr
    · simp at hr

private theorem wait_run_append : ∀ (a b : List Act) {s s' : State}, s.run (a ++ b) = some s' →
    ∃ t, s.run a = some t ∧ t.run b = some s'
  | [], b, s, s', h => ⟨s, rfl, h⟩
  | x :: a, b, s, s', h => by
    simp only [List.cons_append, State.run] at h ⊢
    split at h
    · rename_i s1 hs; exact wait_run_append a b h
    · simp at h

/-- The call `wait ids num` is in progress or has returned. -/
private def Going (ids : List Nat) (num : Int) (s : State) : Prop :=
  (∃ c, s.call = some c ∧ c.ids = ids ∧ c.num = num) ∨
  (s.call = none ∧ ∃ ready notReady, (ids, num, ready, notReady) ∈ s.results)

private theorem going_run (ids : List Nat) (num : Int) : ∀ (acts : List Act) {s s' : State}, Going ids num s →
    (∀ l n, Act.wait l n ∉ acts) → s.run acts = some s' → Going ids num s'
  | [], s, s', h, _, hr => by simp only [State.run, Option.some.injEq] at hr; rw [← hr]; exact h
  | a :: as, s, s', h, hw, hr => by
    simp only [State.run] at hr
    split at hr
    · rename_i s1 hs
      refine going_run ids num as ?_ (fun l n hm => hw l n (List.mem_cons_of_mem _ hm)) hr
      cases a with
      | wait l n => exact absurd List.mem_cons_self (hw l n)
      | store id =>
        simp only [State.step] at hs
        split at hs
        · simp at hs
        · cases hs; exact h
      | finish outs r =>
        simp only [State.step] at hs
        split at hs
        · simp at hs
        · cases hs; exact h
      | report k =>
        simp only [State.step] at hs
        split at hs
        · simp at hs
        · cases hs; exact h
      | request =>
        simp only [State.step] at hs
        split at hs
        · simp at hs
        · cases hs; exact h
      | reply =>
        simp only [State.step] at hs
        split at hs
        · rename_i c ready notReady t hc hrp
          cases hs
          rcases h with ⟨c', h1, h2, h3⟩ | ⟨h1, -⟩
          · rw [hc] at h1
            cases h1
            exact Or.inr ⟨rfl, c.ready ++ ready, notReady, by simp [h2, h3]⟩
          · rw [hc] at h1; simp at h1
        · simp at hs
    · simp at hr

/-- Exactly when a `wait` returns: after the call, when no message is under way, it has returned if and only if `num_returns` is at least 1 and
that many of its references were stored locally or computed. So a failed task never counts, and 0 and more than the length of the list
never return, whatever finishes. -/
theorem C40_exact_partial (pre post : List Act) (ids : List Nat) (num : Int) (s : State)
    (hrun : State.init.run (pre ++ .wait ids num :: post) = some s) (hpost : ∀ l n, Act.wait l n ∉ post)
    (h1 : s.request = none) (h2 : s.reports = []) (h3 : s.replies = []) (hst : ∀ i, Act.store i ∉ post) :
    s.call = none ↔ 1 ≤ num ∧ ∃ fin : List Nat, fin.Sublist ids ∧ (fin.length : Int) = num ∧
      ∀ i ∈ fin, Act.store i ∈ pre ∨ ∃ outs r, Act.finish outs r ∈ pre ++ post ∧ Computed outs r i := by
  have hst' : ∀ i, Act.store i ∈ pre ++ .wait ids num :: post ↔ Act.store i ∈ pre := by
    intro i; simp [hst i]
  have hfi' : ∀ outs r, Act.finish outs r ∈ pre ++ .wait ids num :: post ↔ Act.finish outs r ∈ pre ++ post := by
    intro outs r; simp
  have hg : Going ids num s := by
    obtain ⟨t, -, hb⟩ := wait_run_append pre _ hrun
    simp only [State.run] at hb
    split at hb
    · rename_i s1 hs
      refine going_run ids num post ?_ hpost hb
      simp only [State.step] at hs
      split at hs
      · simp at hs
      · rename_i hcall
        split at hs
        · cases hs
          exact Or.inr ⟨by simpa using hcall, _, _, List.mem_append_right _ (List.mem_singleton.2 rfl)⟩
        · cases hs
          exact Or.inl ⟨_, rfl, rfl, rfl⟩
    · simp at hb
  constructor
  · intro hc
    rcases hg with ⟨c, h, -⟩ | ⟨-, ready, notReady, hm⟩
    · rw [hc] at h; simp at h
    · obtain ⟨a1, a2, a3⟩ := C39_partition _ s hrun ids num ready notReady hm
      have hp : ready ≠ [] := (pos_run _ ⟨by simp [State.init], by simp [State.init]⟩ hrun).2 _ hm
      have hlen : 1 ≤ ready.length := List.length_pos_iff.2 hp
      refine ⟨by omega, ?_⟩
      have hsub : ready.Subperm ids := (List.sublist_append_left ready notReady).subperm.trans a1.subperm
      obtain ⟨fin, f1, f2⟩ := hsub
      refine ⟨fin, f2, by rw [f1.length_eq]; exact a2, fun i hi => ?_⟩
      rcases a3 i (f1.mem_iff.1 hi) with h | ⟨outs, r, h, hcm⟩
      · exact Or.inl ((hst' i).1 h)
      · exact Or.inr ⟨outs, r, (hfi' outs r).1 h, hcm⟩
  · rintro ⟨hn, fin, f1, f2, f3⟩
    rcases hg with ⟨c, h, e1, e2⟩ | ⟨h, -⟩
    · have := C40_succeeded_partial _ s c hrun h1 h2 h3 h (by omega) fin (by rw [e1]; exact f1) (fun i hi => by
        rcases f3 i hi with h | ⟨outs, r, h, hcm⟩
        · exact Or.inl ((hst' i).2 h)
        · exact Or.inr ⟨outs, r, (hfi' outs r).2 h, hcm⟩)
      omega
    · exact h

set_option synthInstance.maxSize 1000 in
/-- A failed task and a computed one: `wait` for one of them returns, for both it does not. -/
example : (State.init.run [.wait [1, 2] 1, .finish [1] (.raise 0), .finish [2] (.ret (.data 0)), .request, .report 0, .report 0, .reply]).map
      (fun s => (s.call.isSome, s.results)) = some (false, [([1, 2], 1, [2], [1])]) ∧
    (State.init.run [.wait [1, 2] 2, .finish [1] (.raise 0), .finish [2] (.ret (.data 0)), .request, .report 0, .report 0]).map
      (fun s => (s.call.isSome, s.replies)) = some (true, []) := by decide +kernel

/-- With one computed reference of two asked for the call still waits. -/
example : (State.init.run [.store 3, .wait [1, 2, 3] 3, .request, .finish [1] (.ret (.data 0)), .report 0]).map
    (fun s => (s.call.isSome, s.monitor.ready, s.monitor.awaited)) = some (true, [1], [2]) := by decide +kernel

/-- With the second one it returns. -/
example : (State.init.run [.store 3, .wait [1, 2, 3] 3, .request, .finish [1] (.ret (.data 0)), .report 0,
    .finish [2] (.ret (.data 0)), .report 0, .reply]).map (·.results) = some [([1, 2, 3], 3, [3, 1, 2], [])] := by decide +kernel

end Verif.Props
