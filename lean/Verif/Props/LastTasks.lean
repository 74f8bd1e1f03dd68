import Mathlib.Data.Nat.Find
import Verif.Lemmas.LastTasks

/-! C141: tasks that are unfinished when the program ends. -/
namespace Verif.Props

open Verif.LastTasks

/-- A program: tasks depend on earlier ones and are sent to existing workers. -/
def LastGood (p : Prog) : Prop := ∀ i < p.num, p.place i < p.workers ∧ ∀ j ∈ p.deps i, j < i

/-- All tasks that a task depends on, directly or not, are sent to the same worker. -/
inductive LastLocal (p : Prog) : Nat → Prop
  | mk (i : Nat) : (∀ j ∈ p.deps i, p.place j = p.place i) → (∀ j ∈ p.deps i, LastLocal p j) → LastLocal p i

private theorem local_mk {p : Prog} (i : Nat) (h : ∀ j ∈ p.deps i, p.place j = p.place i ∧ LastLocal p j) : LastLocal p i :=
  ⟨i, fun j hj => (h j hj).1, fun j hj => (h j hj).2⟩

/-- C141: every submitted task is executed before all workers have ended. -/
def C141_full : Prop :=
  ∀ (p : Prog) (acts : List Act) (s : State), LastGood p → (State.init p).run p acts = some s → s.ended p → ∀ i < p.num, i ∈ s.done

/-- C141 (part): no task is executed twice, and nothing else is. -/
theorem C141_once_partial (p : Prog) (acts : List Act) (s : State) (h : (State.init p).run p acts = some s) :
    s.done.Nodup ∧ ∀ i ∈ s.done, i < p.num := ⟨(inv_run acts h).done, (inv_run acts h).num⟩

/-- Task 1 depends on task 0 of the other worker, task 3 on task 2 of the same. -/
def exLast : Prog := ⟨2, 4, fun i => if i = 1 then [0] else if i = 3 then [2] else [], fun i => if i = 0 then 0 else 1⟩

example : ((State.init exLast).run exLast [.read 1, .read 1, .read 0, .data 1 0, .read 1, .read 1, .read 0]).map (·.done) = some [2, 0, 1, 3] := by
  decide

private theorem local_inv (p : Prog) (hp : LastGood p) (acts : List Act) (s : State) (h : (State.init p).run p acts = some s) (w : Nat) :
    ∃ pre rest, p.tasks w = pre ++ rest ∧ (∀ i ∈ pre, LastLocal p i → i ∈ (s.workers w).store ∧ i ∈ s.done) ∧
      (((s.workers w).cancelled = false ∧ (s.workers w).inbox = rest.map .exec ++ [.cancel]) ∨ (rest = [] ∧ (s.workers w).inbox = [])) := by
  induction acts using List.reverseRecOn generalizing s with
  | nil => cases h; exact ⟨[], p.tasks w, rfl, by simp, .inl ⟨rfl, rfl⟩⟩
  | append_singleton as a ih =>
    obtain ⟨t, ht, hs⟩ := run_concat h
    obtain ⟨pre, rest, h1, h2, h3⟩ := ih t ht
    cases a with
    | read v =>
      simp only [State.step] at hs
      by_cases hv : w = v
      · subst hv
        rcases h3 with ⟨hc, hin⟩ | ⟨_, hin⟩
        · cases rest with
          | nil =>
            simp only [List.map_nil, List.nil_append] at hin
            rw [hin] at hs
            simp only at hs
            cases hs
            exact ⟨pre, [], h1, by simpa using h2, .inr ⟨rfl, by simp⟩⟩
          | cons i rest =>
            simp only [List.map_cons, List.cons_append] at hin
            rw [hin] at hs
            simp only [hc, Bool.false_eq_true, if_false] at hs
            have hsorted := tasks_sorted (p := p) w
            rw [h1] at hsorted
            have hi : i < p.num ∧ p.place i = w := mem_tasks.1 (by rw [h1]; simp)
            have hready : LastLocal p i → p.ready (t.workers w).store i = true := by
              rintro ⟨_, hl1, hl2⟩
              refine List.all_eq_true.2 fun j hj => ?_
              have hpj := hl1 j hj
              have hlj := hl2 j hj
              have hlt := (hp i hi.1).2 j hj
              have hm : j ∈ p.tasks w := mem_tasks.2 ⟨by omega, by rw [hpj, hi.2]⟩
              rw [h1] at hm
              rcases List.mem_append.1 hm with hm | hm
              · simpa using (h2 j hm hlj).1
              · exfalso
                obtain ⟨_, h5, _⟩ := List.pairwise_append.1 hsorted
                rcases List.mem_cons.1 hm with rfl | hm
                · omega
                · have := (List.pairwise_cons.1 h5).1 j hm; omega
            split at hs
            · cases hs
              obtain ⟨l, e1, e2⟩ := scan_spec (p := p) (t.workers w).pending ((t.workers w).store ++ [i]) (t.done ++ [i])
              refine ⟨pre ++ [i], rest, by simp [h1], ?_, .inl ⟨by simp [hc], by simp⟩⟩
              intro k hk hlk
              rw [upd_same, upd_done, e1]
              rcases List.mem_append.1 hk with hk | hk
              · have := h2 k hk hlk
                simp [this.1, this.2]
              · rw [List.mem_singleton.1 hk]; simp
            · rename_i hnr
              cases hs
              refine ⟨pre ++ [i], rest, by simp [h1], ?_, .inl ⟨by simp [hc], by simp⟩⟩
              intro k hk hlk
              rcases List.mem_append.1 hk with hk | hk
              · have := h2 k hk hlk
                rw [upd_same]
                exact this
              · rw [List.mem_singleton.1 hk] at hlk
                exact absurd (hready hlk) hnr
        · rw [hin] at hs; cases hs
      · refine ⟨pre, rest, h1, ?_, ?_⟩
        · intro k hk hlk
          have hh := h2 k hk hlk
          split at hs
          · cases hs
          · cases hs
            rw [upd_other _ _ _ hv]; exact hh
          · split at hs
            · cases hs
              rw [upd_other _ _ _ hv]; exact hh
            · split at hs
              · cases hs
                rename_i i _ _ _ _
                obtain ⟨l, e1, e2⟩ := scan_spec (p := p) (t.workers v).pending ((t.workers v).store ++ [i]) (t.done ++ [i])
                rw [upd_other _ _ _ hv, upd_done, e1]
                exact ⟨hh.1, by simp [hh.2]⟩
              · cases hs
                rw [upd_other _ _ _ hv]; exact hh
        · have hw : s.workers w = t.workers w := by
            split at hs
            · cases hs
            · cases hs; rw [upd_other _ _ _ hv]
            · split at hs
              · cases hs; rw [upd_other _ _ _ hv]
              · split at hs <;> cases hs <;> rw [upd_other _ _ _ hv]
          rw [hw]; exact h3
    | data v j =>
      simp only [State.step] at hs
      split at hs
      · cases hs
        obtain ⟨l, e1, e2⟩ := scan_spec (p := p) (t.workers v).pending ((t.workers v).store ++ [j]) t.done
        refine ⟨pre, rest, h1, fun k hk hlk => ?_, ?_⟩
        · have hh := h2 k hk hlk
          rw [upd_done, e1]
          by_cases hv : w = v
          · subst hv
            rw [upd_same]
            simp [hh.1, hh.2]
          · rw [upd_other _ _ _ hv]
            simp [hh.1, hh.2]
        · by_cases hv : w = v
          · subst hv
            rw [upd_same]; exact h3
          · rw [upd_other _ _ _ hv]; exact h3
      · cases hs

/-- C141 (part): a task that depends only on tasks of its own worker is executed before the workers have ended, whatever the schedule.
Missing: other tasks. -/
theorem C141_local_partial (p : Prog) (hp : LastGood p) (acts : List Act) (s : State) (h : (State.init p).run p acts = some s) (he : s.ended p)
    (i : Nat) (hi : i < p.num) (hl : LastLocal p i) : i ∈ s.done := by
  obtain ⟨pre, rest, h1, h2, h3⟩ := local_inv p hp acts s h (p.place i)
  have hin := he (p.place i) (hp i hi).1
  rcases h3 with ⟨_, h3⟩ | ⟨rfl, _⟩
  · rw [hin] at h3; simp at h3
  · have hm : i ∈ p.tasks (p.place i) := mem_tasks.2 ⟨hi, rfl⟩
    rw [h1, List.append_nil] at hm
    exact (h2 i hm hl).2

example : LastLocal exLast 3 ∧ ¬ LastLocal exLast 1 ∧
    ((State.init exLast).run exLast [.read 1, .read 1, .read 1, .read 1, .read 0, .read 0]).map (·.done) = some [2, 3, 0] := by
  refine ⟨local_mk 3 fun j hj => ?_, ?_, by decide⟩
  · simp [exLast] at hj
    subst hj
    exact ⟨rfl, local_mk 2 (by simp [exLast])⟩
  · rintro ⟨_, h, _⟩
    exact absurd (h 0 (by simp [exLast])) (by decide)

/-- Reading everything that is in the inboxes of the first workers. -/
private theorem read_all (p : Prog) : ∀ (n : Nat) (s : State), ∃ acts s', s.run p acts = some s' ∧ (∀ w j, Act.data w j ∉ acts) ∧
    (∀ w < n, (s'.workers w).inbox = []) ∧ (∀ i ∈ s.done, i ∈ s'.done) := by
  have one : ∀ (m : Nat) (w : Nat) (s : State), (s.workers w).inbox.length = m → ∃ acts s', s.run p acts = some s' ∧ (∀ w j, Act.data w j ∉ acts) ∧
      (s'.workers w).inbox = [] ∧ (∀ v, v ≠ w → s'.workers v = s.workers v) ∧ (∀ i ∈ s.done, i ∈ s'.done) := by
    intro m w
    induction m with
    | zero => intro s hm; exact ⟨[], s, rfl, by simp, List.eq_nil_of_length_eq_zero hm, fun _ _ => rfl, fun _ h => h⟩
    | succ m ih =>
      intro s hm
      have : ∃ t, s.step p (.read w) = some t ∧ (t.workers w).inbox.length = m ∧ (∀ v, v ≠ w → t.workers v = s.workers v) ∧
          (∀ i ∈ s.done, i ∈ t.done) := by
        simp only [State.step]
        cases hin : (s.workers w).inbox with
        | nil => rw [hin] at hm; simp at hm
        | cons x rest =>
          have hlen : rest.length = m := by rw [hin] at hm; simpa using hm
          cases x with
          | cancel => exact ⟨_, rfl, by simpa using hlen, fun v hv => upd_other _ _ _ hv, fun _ h => h⟩
          | exec i =>
            simp only
            split
            · exact ⟨_, rfl, by simpa using hlen, fun v hv => upd_other _ _ _ hv, fun _ h => h⟩
            · split
              · obtain ⟨l, e1, e2⟩ := scan_spec (p := p) (s.workers w).pending ((s.workers w).store ++ [i]) (s.done ++ [i])
                refine ⟨_, rfl, by simpa using hlen, fun v hv => upd_other _ _ _ hv, fun k hk => ?_⟩
                rw [upd_done, e1]; simp [hk]
              · exact ⟨_, rfl, by simpa using hlen, fun v hv => upd_other _ _ _ hv, fun _ h => h⟩
      obtain ⟨t, ht, h1, h2, h3⟩ := this
      obtain ⟨acts, s', e1, e2, e3, e4, e5⟩ := ih t h1
      refine ⟨.read w :: acts, s', by simp [State.run, ht, e1], ?_, e3, fun v hv => (e4 v hv).trans (h2 v hv), fun i hi => e5 i (h3 i hi)⟩
      intro v j hm
      rcases List.mem_cons.1 hm with hm | hm
      · cases hm
      · exact e2 v j hm
  intro n
  induction n with
  | zero => intro s; exact ⟨[], s, rfl, by simp, by simp, fun _ h => h⟩
  | succ n ih =>
    intro s
    obtain ⟨as, t, h1, h2, h3, h4⟩ := ih s
    obtain ⟨bs, u, g1, g2, g3, g4, g5⟩ := one _ n t rfl
    refine ⟨as ++ bs, u, by rw [run_append, h1]; exact g1, ?_, ?_, fun i hi => g5 i (h4 i hi)⟩
    · intro w j hm
      rcases List.mem_append.1 hm with hm | hm
      · exact h2 w j hm
      · exact g2 w j hm
    · intro w hw
      by_cases hv : w = n
      · subst hv; exact g3
      · rw [g4 w hv]; exact h3 w (by omega)

/-- Without messages between the workers only tasks are executed that depend on tasks of their own worker. -/
private theorem reads_local (p : Prog) (acts : List Act) (hr : ∀ w j, Act.data w j ∉ acts) (s : State) (h : (State.init p).run p acts = some s) :
    (∀ i ∈ s.done, LastLocal p i) ∧ ∀ w, ∀ i ∈ (s.workers w).store, LastLocal p i ∧ p.place i = w := by
  induction acts using List.reverseRecOn generalizing s with
  | nil => cases h; exact ⟨by simp [State.init], by simp [State.init]⟩
  | append_singleton as a ih =>
    obtain ⟨t, ht, hs⟩ := run_concat h
    obtain ⟨h1, h2⟩ := ih (fun w j hm => hr w j (List.mem_append_left _ hm)) t ht
    have hinv := inv_run as ht
    cases a with
    | data w j => exact absurd (by simp) (hr w j)
    | read w =>
      simp only [State.step] at hs
      split at hs
      · cases hs
      · cases hs
        refine ⟨h1, fun v i hi => ?_⟩
        by_cases hv : v = w
        · subst hv; rw [upd_same] at hi; exact h2 v i hi
        · rw [upd_other _ _ _ hv] at hi; exact h2 v i hi
      · rename_i i rest hin
        split at hs
        · cases hs
          refine ⟨h1, fun v i hi => ?_⟩
          by_cases hv : v = w
          · subst hv; rw [upd_same] at hi; exact h2 v i hi
          · rw [upd_other _ _ _ hv] at hi; exact h2 v i hi
        · split at hs
          · rename_i hready
            cases hs
            have hplace : ∀ k ∈ (t.workers w).pending ++ (t.workers w).coming, p.place k = w := fun k hk => (hinv.at_ w k hk).2.1
            have hpi : p.place i = w := hplace i (List.mem_append_right _ (by simp [Worker.coming, hin]))
            have hli : LastLocal p i := local_mk i fun j hj => by
              have := h2 w j (by simpa using (List.all_eq_true.1 hready) j hj)
              exact ⟨by rw [this.2, hpi], this.1⟩
            have hst : ∀ k ∈ (t.workers w).store ++ [i], LastLocal p k ∧ p.place k = w := by
              intro k hk
              rcases List.mem_append.1 hk with hk | hk
              · exact h2 w k hk
              · rw [List.mem_singleton.1 hk]; exact ⟨hli, hpi⟩
            have hpend : ∀ k ∈ (t.workers w).pending, (∀ j ∈ p.deps k, LastLocal p j ∧ p.place j = w) → LastLocal p k ∧ p.place k = w := by
              intro k hk hd
              have hpk := hplace k (List.mem_append_left _ hk)
              exact ⟨local_mk k fun j hj => ⟨by rw [(hd j hj).2, hpk], (hd j hj).1⟩, hpk⟩
            have key := scan_keeps (p := p) (fun k => LastLocal p k ∧ p.place k = w) (t.workers w).pending ((t.workers w).store ++ [i]) [] hst
              (by simp) hpend
            obtain ⟨l, e1, e2⟩ := scan_spec (p := p) (t.workers w).pending ((t.workers w).store ++ [i]) (t.done ++ [i])
            have hl : ∀ k ∈ l, LastLocal p k ∧ p.place k = w := by
              have key' := (scan_keeps (p := p) (fun k => LastLocal p k ∧ p.place k = w) (t.workers w).pending ((t.workers w).store ++ [i])
                [] hst (by simp) hpend).1
              have hsame : ∀ (P st d1 d2 : List Nat), (p.scan P st d1).2.1 = (p.scan P st d2).2.1 := by
                intro P
                induction P with
                | nil => intros; rfl
                | cons q P ihP =>
                  intro st d1 d2
                  rw [Prog.scan, Prog.scan]
                  split
                  · exact ihP _ _ _
                  · exact ihP _ _ _
              intro k hk
              refine key' k ?_
              rw [hsame _ _ [] (t.done ++ [i]), e1]
              simp [hk]
            refine ⟨fun k hk => ?_, fun v k hk => ?_⟩
            · rw [upd_done, e1] at hk
              rcases List.mem_append.1 hk with hk | hk
              · rcases List.mem_append.1 hk with hk | hk
                · exact h1 k hk
                · rw [List.mem_singleton.1 hk]; exact hli
              · exact (hl k hk).1
            · by_cases hv : v = w
              · subst hv
                rw [upd_same, e1] at hk
                rcases List.mem_append.1 hk with hk | hk
                · exact hst k hk
                · exact hl k hk
              · rw [upd_other _ _ _ hv] at hk; exact h2 v k hk
          · cases hs
            refine ⟨h1, fun v i hi => ?_⟩
            by_cases hv : v = w
            · subst hv; rw [upd_same] at hi; exact h2 v i hi
            · rw [upd_other _ _ _ hv] at hi; exact h2 v i hi

/-- Exactly: in every program there is a schedule in which only the tasks are executed that depend on tasks of their own worker only. -/
theorem C141_least_exactly_partial (p : Prog) (hp : LastGood p) :
    ∃ acts s, (State.init p).run p acts = some s ∧ s.ended p ∧ ∀ i < p.num, i ∈ s.done ↔ LastLocal p i := by
  obtain ⟨acts, s, h1, h2, h3, _⟩ := read_all p p.workers (State.init p)
  exact ⟨acts, s, h1, h3, fun i hi => ⟨(reads_local p acts h2 s h1).1 i, C141_local_partial p hp acts s h1 h3 i hi⟩⟩

example : ((State.init exLast).run exLast [.read 0, .read 0, .read 1, .read 1, .read 1, .read 1]).map
    (fun s => (s.done, (s.workers 1).inbox, (s.workers 1).pending)) = some ([0, 2, 3], [], []) := by decide

/-- C141 is violated in every program with a task that depends on a task of another worker: such a task may be cancelled. -/
theorem C141_cancelled_violated (p : Prog) (hp : LastGood p) (i j : Nat) (hi : i < p.num) (hj : j ∈ p.deps i) (hne : p.place j ≠ p.place i) :
    ∃ acts s, (State.init p).run p acts = some s ∧ s.ended p ∧ i ∉ s.done := by
  obtain ⟨acts, s, h1, h2, h3⟩ := C141_least_exactly_partial p hp
  exact ⟨acts, s, h1, h2, fun hm => by
    obtain ⟨_, hl, _⟩ := (h3 i hi).1 hm
    exact hne (hl j hj)⟩

example : exLast.place 0 ≠ exLast.place 1 ∧ 0 ∈ exLast.deps 1 := by decide

theorem exLast_good : LastGood exLast := by
  intro i hi
  have : i = 0 ∨ i = 1 ∨ i = 2 ∨ i = 3 := by simp [exLast] at hi; omega
  rcases this with rfl | rfl | rfl | rfl <;> decide

/-- C141 is violated. -/
theorem C141_violated : ¬ C141_full := by
  intro h
  obtain ⟨acts, s, h1, h2, h3⟩ := C141_cancelled_violated exLast exLast_good 1 0 (by decide) (by decide) (by decide)
  exact h3 (h exLast acts s exLast_good h1 h2 1 (by decide))

example : ((State.init exLast).run exLast [.read 1, .read 1, .read 1, .read 1, .read 0, .read 0]).map (fun s => decide (1 ∈ s.done)) = some false := by
  decide

private theorem scan_left (p : Prog) (P : List Nat) : ∀ (store done : List Nat), P.Pairwise (· < ·) → (∀ i ∈ P, ∀ j ∈ p.deps i, j < i) →
    (p.scan P store done).1.Sublist P ∧ ∀ i ∈ (p.scan P store done).1, ∃ j ∈ p.deps i, j ∉ (p.scan P store done).2.1 := by
  induction P with
  | nil => intro store done _ _; exact ⟨List.Sublist.refl _, by simp [Prog.scan]⟩
  | cons i P ih =>
    intro store done hs hd
    obtain ⟨h1, h2⟩ := List.pairwise_cons.1 hs
    rw [Prog.scan]
    split
    · obtain ⟨g1, g2⟩ := ih (store ++ [i]) (done ++ [i]) h2 fun k hk => hd k (by simp [hk])
      exact ⟨g1.cons i, g2⟩
    · rename_i hr
      obtain ⟨g1, g2⟩ := ih store done h2 fun k hk => hd k (by simp [hk])
      refine ⟨g1.cons_cons i, fun k hk => ?_⟩
      rcases List.mem_cons.1 hk with rfl | hk
      · have : ∃ j ∈ p.deps k, j ∉ store := by
          apply Classical.byContradiction
          intro hno
          exact hr (List.all_eq_true.2 fun j hj => by
            by_cases h : j ∈ store
            · simpa using h
            · exact absurd ⟨j, hj, h⟩ hno)
        obtain ⟨j, hj, hjs⟩ := this
        refine ⟨j, hj, ?_⟩
        obtain ⟨l, e1, e2⟩ := scan_spec (p := p) P store done
        simp only
        rw [e1]
        intro hm
        rcases List.mem_append.1 hm with hm | hm
        · exact hjs hm
        · have := h1 j (e2.subset (by simp [hm]))
          have := hd k (by simp) j hj
          omega
      · exact g2 k hk

/-- Task `i` was pending for a missing result when its worker read `CANCEL`. -/
def LastLost (p : Prog) (acts : List Act) (i : Nat) : Prop :=
  ∃ pre post t, acts = pre ++ .read (p.place i) :: post ∧ (State.init p).run p pre = some t ∧ (t.workers (p.place i)).inbox = [.cancel] ∧
    i ∈ (t.workers (p.place i)).pending ∧ ∃ j ∈ p.deps i, j ∉ (t.workers (p.place i)).store

private theorem lost_append {p : Prog} {acts : List Act} {a : Act} {i : Nat} : LastLost p acts i → LastLost p (acts ++ [a]) i := by
  rintro ⟨pre, post, t, h1, h2⟩
  exact ⟨pre, post ++ [a], t, by rw [h1]; simp, h2⟩

private theorem lost_inv (p : Prog) (hp : LastGood p) (acts : List Act) (s : State) (h : (State.init p).run p acts = some s) (w : Nat) :
    ((s.workers w).inbox = [] ∧ (s.workers w).pending = [] ∧ ∀ i ∈ p.tasks w, i ∈ s.done ∨ LastLost p acts i) ∨
    ∃ pre rest, p.tasks w = pre ++ rest ∧ (s.workers w).cancelled = false ∧ (s.workers w).inbox = rest.map .exec ++ [.cancel] ∧
      (s.workers w).pending.Sublist pre ∧ (∀ i ∈ (s.workers w).pending, ∃ j ∈ p.deps i, j ∉ (s.workers w).store) ∧
      ∀ i ∈ pre, i ∈ s.done ∨ i ∈ (s.workers w).pending := by
  induction acts using List.reverseRecOn generalizing s with
  | nil => cases h; exact .inr ⟨[], p.tasks w, rfl, rfl, rfl, List.Sublist.refl _, by simp [State.init], by simp⟩
  | append_singleton as a ih =>
    obtain ⟨t, ht, hs⟩ := run_concat h
    have IH := ih t ht
    have keep : (s.workers w = t.workers w) → (∀ i ∈ t.done, i ∈ s.done) → _ := fun (e : s.workers w = t.workers w) (hd : ∀ i ∈ t.done, i ∈ s.done) =>
      (show ((s.workers w).inbox = [] ∧ (s.workers w).pending = [] ∧ ∀ i ∈ p.tasks w, i ∈ s.done ∨ LastLost p (as ++ [a]) i) ∨
        ∃ pre rest, p.tasks w = pre ++ rest ∧ (s.workers w).cancelled = false ∧ (s.workers w).inbox = rest.map .exec ++ [.cancel] ∧
          (s.workers w).pending.Sublist pre ∧ (∀ i ∈ (s.workers w).pending, ∃ j ∈ p.deps i, j ∉ (s.workers w).store) ∧
          ∀ i ∈ pre, i ∈ s.done ∨ i ∈ (s.workers w).pending by
        rw [e]
        rcases IH with ⟨h1, h2, h3⟩ | ⟨pre, rest, h1, h2, h3, h4, h5, h6⟩
        · refine .inl ⟨h1, h2, fun i hi => ?_⟩
          rcases h3 i hi with h | h
          · exact .inl (hd i h)
          · exact .inr (lost_append h)
        · refine .inr ⟨pre, rest, h1, h2, h3, h4, h5, fun i hi => ?_⟩
          rcases h6 i hi with h | h
          · exact .inl (hd i h)
          · exact .inr h)
    have sorted : ∀ pre rest, p.tasks w = pre ++ rest → ∀ P : List Nat, P.Sublist pre → P.Pairwise (· < ·) ∧ ∀ i ∈ P, ∀ j ∈ p.deps i, j < i := by
      intro pre rest e P hP
      have hsub : P.Sublist (p.tasks w) := by rw [e]; exact hP.trans (List.sublist_append_left _ _)
      exact ⟨(tasks_sorted w).sublist hsub, fun i hi j hj => (hp i (mem_tasks.1 (hsub.subset hi)).1).2 j hj⟩
    cases a with
    | read v =>
      by_cases hv : w = v
      · subst hv
        rcases IH with ⟨h1, _, _⟩ | ⟨pre, rest, h1, h2, h3, h4, h5, h6⟩
        · simp only [State.step, h1] at hs; cases hs
        · cases rest with
          | nil =>
            simp only [List.map_nil, List.nil_append] at h3
            simp only [State.step, h3] at hs
            cases hs
            refine .inl ⟨by rw [upd_same], by rw [upd_same], fun i hi => ?_⟩
            have hpl := (mem_tasks.1 hi).2
            rw [h1, List.append_nil] at hi
            rcases h6 i hi with h | h
            · exact .inl h
            · exact .inr ⟨as, [], t, by rw [hpl], ht, by rw [hpl]; exact h3, by rw [hpl]; exact h, by rw [hpl]; exact h5 i h⟩
          | cons i rest =>
            simp only [List.map_cons, List.cons_append] at h3
            simp only [State.step, h3, h2, Bool.false_eq_true, if_false] at hs
            split at hs
            · cases hs
              obtain ⟨hs1, hs2⟩ := sorted pre (i :: rest) h1 _ h4
              obtain ⟨g1, g2⟩ := scan_left p (t.workers w).pending ((t.workers w).store ++ [i]) (t.done ++ [i]) hs1 hs2
              obtain ⟨l, e1, e2⟩ := scan_spec (p := p) (t.workers w).pending ((t.workers w).store ++ [i]) (t.done ++ [i])
              refine .inr ⟨pre ++ [i], rest, by simp [h1], by rw [upd_same], by rw [upd_same], ?_, ?_, ?_⟩
              · rw [upd_same]; exact (g1.trans h4).trans (List.sublist_append_left _ _)
              · rw [upd_same]; exact g2
              · intro k hk
                rw [upd_same, upd_done, e1]
                simp only [List.mem_append, List.mem_singleton] at hk ⊢
                rcases hk with hk | rfl
                · rcases h6 k hk with h | h
                  · exact .inl (.inl (.inl h))
                  · rcases List.mem_append.1 (e2.symm.subset h) with h | h
                    · exact .inl (.inr h)
                    · exact .inr h
                · exact .inl (.inl (.inr rfl))
            · rename_i hr
              cases hs
              refine .inr ⟨pre ++ [i], rest, by simp [h1], by rw [upd_same], by rw [upd_same], ?_, ?_, ?_⟩
              · rw [upd_same]; exact h4.append (List.Sublist.refl _)
              · rw [upd_same]
                intro k hk
                rcases List.mem_append.1 hk with hk | hk
                · exact h5 k hk
                · rw [List.mem_singleton.1 hk]
                  apply Classical.byContradiction
                  intro hno
                  exact hr (List.all_eq_true.2 fun j hj => by
                    by_cases h : j ∈ (t.workers w).store
                    · simpa using h
                    · exact absurd ⟨j, hj, h⟩ hno)
              · intro k hk
                rw [upd_same, upd_done]
                rcases List.mem_append.1 hk with hk | hk
                · rcases h6 k hk with h | h
                  · exact .inl h
                  · exact .inr (by simp [h])
                · exact .inr (by simp [List.mem_singleton.1 hk])
      · simp only [State.step] at hs
        split at hs
        · cases hs
        · cases hs; exact keep (upd_other _ _ _ hv) fun _ h => h
        · split at hs
          · cases hs; exact keep (upd_other _ _ _ hv) fun _ h => h
          · split at hs
            · cases hs
              refine keep (upd_other _ _ _ hv) fun k hk => ?_
              rename_i i _ _ _ _
              obtain ⟨l, e1, e2⟩ := scan_spec (p := p) (t.workers v).pending ((t.workers v).store ++ [i]) (t.done ++ [i])
              rw [upd_done, e1]; simp [hk]
            · cases hs; exact keep (upd_other _ _ _ hv) fun _ h => h
    | data v j =>
      simp only [State.step] at hs
      split at hs
      · rename_i hcond
        cases hs
        obtain ⟨l, e1, e2⟩ := scan_spec (p := p) (t.workers v).pending ((t.workers v).store ++ [j]) t.done
        by_cases hv : w = v
        · subst hv
          rcases IH with ⟨_, h2, _⟩ | ⟨pre, rest, h1, h2, h3, h4, h5, h6⟩
          · obtain ⟨_, _, k, hk, _⟩ := hcond
            rw [h2] at hk; cases hk
          · obtain ⟨hs1, hs2⟩ := sorted pre rest h1 _ h4
            obtain ⟨g1, g2⟩ := scan_left p (t.workers w).pending ((t.workers w).store ++ [j]) t.done hs1 hs2
            refine .inr ⟨pre, rest, h1, by rw [upd_same]; exact h2, by rw [upd_same]; exact h3, ?_, ?_, ?_⟩
            · rw [upd_same]; exact g1.trans h4
            · rw [upd_same]; exact g2
            · intro k hk
              rw [upd_same, upd_done, e1]
              simp only [List.mem_append]
              rcases h6 k hk with h | h
              · exact .inl (.inl h)
              · rcases List.mem_append.1 (e2.symm.subset h) with h | h
                · exact .inl (.inr h)
                · exact .inr h
        · refine keep (upd_other _ _ _ hv) fun k hk => ?_
          rw [upd_done, e1]; simp [hk]
      · cases hs

/-- A task that was forgotten is not executed later. -/
private theorem gone_step (p : Prog) (i : Nat) (s s' : State) (a : Act) (hg : i ∉ s.done ∧ ∀ w, i ∉ (s.workers w).pending ++ (s.workers w).coming)
    (hs : s.step p a = some s') : i ∉ s'.done ∧ ∀ w, i ∉ (s'.workers w).pending ++ (s'.workers w).coming := by
  obtain ⟨h1, h2⟩ := hg
  have build : ∀ (w : Nat) (x : Worker) (d : List Nat), i ∉ d → i ∉ x.pending ++ x.coming →
      i ∉ (s.upd w x d).done ∧ ∀ v, i ∉ ((s.upd w x d).workers v).pending ++ ((s.upd w x d).workers v).coming := by
    intro w x d hd hx
    refine ⟨hd, fun v => ?_⟩
    by_cases hv : v = w
    · subst hv; rw [upd_same]; exact hx
    · rw [upd_other _ _ _ hv]; exact h2 v
  cases a with
  | read w =>
    have hw := h2 w
    simp only [State.step] at hs
    split at hs
    · cases hs
    · rename_i rest hin
      cases hs
      refine build w _ _ h1 ?_
      simpa [Worker.coming, hin] using (show _ ∉ _ from hw) |> fun h => by simp [Worker.coming, hin] at h; exact h.2
    · rename_i k rest hin
      have hw' : i ∉ (s.workers w).pending ∧ i ≠ k ∧ i ∉ ({ s.workers w with inbox := rest } : Worker).coming := by
        simp only [Worker.coming, hin, List.mem_append, List.filterMap_cons, List.mem_cons, not_or] at hw ⊢
        exact hw
      split at hs
      · cases hs
        exact build w _ _ h1 (by rw [List.mem_append]; rintro (h | h); exacts [hw'.1 h, hw'.2.2 h])
      · split at hs
        · cases hs
          obtain ⟨l, e1, e2⟩ := scan_spec (p := p) (s.workers w).pending ((s.workers w).store ++ [k]) (s.done ++ [k])
          refine build w _ _ ?_ ?_
          · rw [e1]
            intro h
            simp only [List.mem_append, List.mem_singleton] at h
            rcases h with (h | h) | h
            · exact h1 h
            · exact hw'.2.1 h
            · exact hw'.1 (e2.subset (by simp [h]))
          · rw [List.mem_append]
            rintro (h | h)
            · exact hw'.1 (e2.subset (List.mem_append_right _ h))
            · exact hw'.2.2 h
        · cases hs
          refine build w _ _ h1 ?_
          rw [List.mem_append]
          rintro (h | h)
          · rcases List.mem_append.1 h with h | h
            · exact hw'.1 h
            · exact hw'.2.1 (List.mem_singleton.1 h)
          · exact hw'.2.2 h
  | data w j =>
    have hw := h2 w
    simp only [State.step] at hs
    split at hs
    · cases hs
      obtain ⟨l, e1, e2⟩ := scan_spec (p := p) (s.workers w).pending ((s.workers w).store ++ [j]) s.done
      refine build w _ _ ?_ ?_
      · rw [e1]
        intro h
        rcases List.mem_append.1 h with h | h
        · exact h1 h
        · exact hw (List.mem_append_left _ (e2.subset (by simp [h])))
      · rw [List.mem_append]
        rintro (h | h)
        · exact hw (List.mem_append_left _ (e2.subset (List.mem_append_right _ h)))
        · exact hw (List.mem_append_right _ h)
    · cases hs

/-- Exactly: a task is not executed if and only if it was pending for a missing result when its worker read `CANCEL`. -/
theorem C141_lost_exactly_partial (p : Prog) (hp : LastGood p) (acts : List Act) (s : State) (h : (State.init p).run p acts = some s) (he : s.ended p)
    (i : Nat) (hi : i < p.num) : i ∉ s.done ↔ LastLost p acts i := by
  constructor
  · intro hno
    have hm : i ∈ p.tasks (p.place i) := mem_tasks.2 ⟨hi, rfl⟩
    rcases lost_inv p hp acts s h (p.place i) with ⟨_, _, h3⟩ | ⟨pre, rest, _, _, h3, _⟩
    · exact (h3 i hm).resolve_left hno
    · rw [he _ (hp i hi).1] at h3; simp at h3
  · rintro ⟨pre, post, t, rfl, h2, h3, h4, _⟩
    have hinv := inv_run pre h2
    rw [run_append, h2] at h
    simp only [Option.bind_some, State.run] at h
    rw [Option.bind_eq_some_iff] at h
    obtain ⟨u, hu, h⟩ := h
    have hat := hinv.at_ (p.place i) i (List.mem_append_left _ h4)
    have hgone : i ∉ u.done ∧ ∀ w, i ∉ (u.workers w).pending ++ (u.workers w).coming := by
      simp only [State.step, h3] at hu
      cases hu
      refine ⟨hat.2.2, fun v => ?_⟩
      by_cases hv : v = p.place i
      · subst hv; rw [upd_same]; simp [Worker.coming]
      · rw [upd_other _ _ _ hv]
        intro hm
        exact hv (hinv.at_ v i hm).2.1.symm
    have : ∀ (as : List Act) (u : State), (i ∉ u.done ∧ ∀ w, i ∉ (u.workers w).pending ++ (u.workers w).coming) → u.run p as = some s → i ∉ s.done := by
      intro as
      induction as with
      | nil => intro u hg hr; cases hr; exact hg.1
      | cons a as ih =>
        intro u hg hr
        simp only [State.run] at hr
        rw [Option.bind_eq_some_iff] at hr
        obtain ⟨u', hu', hr⟩ := hr
        exact ih u' (gone_step p i u u' a hg hu') hr
    exact this post u hgone h

example : ((State.init exLast).run exLast [.read 1, .read 0, .read 1, .read 1]).map
    (fun s => ((s.workers 1).inbox, (s.workers 1).pending, (s.workers 1).store, s.done)) = some ([.cancel], [1], [2, 3], [0, 2, 3]) ∧ 0 ∈ exLast.deps 1 := by
  decide

/-- A task that waits at a worker for executed tasks can be executed. -/
private theorem fill (p : Prog) (w n : Nat) (inbox : List Msg) (l : List Nat) : ∀ (s : State) (store : List Nat),
    s.workers w = ⟨inbox, [n], store, false⟩ → p.ready store n = false → (∀ j ∈ p.deps n, j ∈ s.done) → (∀ j ∈ p.deps n, j ∉ store → j ∈ l) →
    (∀ j ∈ l, j ∈ p.deps n) →
    ∃ acts s' store', s.run p acts = some s' ∧ s'.done = s.done ++ [n] ∧ s'.workers w = ⟨inbox, [], store', false⟩ ∧
      ∀ v, v ≠ w → s'.workers v = s.workers v := by
  induction l with
  | nil =>
    intro s store _ hr _ hm _
    exfalso
    have : p.ready store n = true := List.all_eq_true.2 fun j hj => by
      by_cases h : j ∈ store
      · simpa using h
      · exact absurd (hm j hj h) (by simp)
    rw [hr] at this; cases this
  | cons j l ih =>
    intro s store hw hr hd hm hl
    by_cases hj : j ∈ store
    · refine ih s store hw hr hd (fun k hk hks => ?_) (fun k hk => hl k (List.mem_cons_of_mem _ hk))
      rcases List.mem_cons.1 (hm k hk hks) with rfl | h
      · exact absurd hj hks
      · exact h
    · have hjd := hl j List.mem_cons_self
      have hstep : s.step p (.data w j) = some (s.upd w { s.workers w with
          pending := (p.scan [n] (store ++ [j]) s.done).1, store := (p.scan [n] (store ++ [j]) s.done).2.1 } (p.scan [n] (store ++ [j]) s.done).2.2) := by
        simp only [State.step, hw]
        rw [if_pos ⟨hd j hjd, hj, n, by simp, hjd⟩]
      cases hready : p.ready (store ++ [j]) n with
      | true =>
        simp only [Prog.scan, hready, if_true] at hstep
        refine ⟨[.data w j], _, store ++ [j] ++ [n], by rw [State.run, hstep]; rfl, rfl, ?_, fun v hv => upd_other _ _ _ hv⟩
        rw [upd_same, hw]
      | false =>
        simp only [Prog.scan, hready, Bool.false_eq_true, if_false] at hstep
        obtain ⟨acts, s', st', h1, h2, h3, h4⟩ := ih (s.upd w { s.workers w with pending := [n], store := store ++ [j] } s.done) (store ++ [j])
          (by rw [upd_same, hw]) hready hd (fun k hk hks => by
            have := hm k hk (fun h => hks (by simp [h]))
            rcases List.mem_cons.1 this with rfl | h
            · exact absurd (by simp) hks
            · exact h) (fun k hk => hl k (List.mem_cons_of_mem _ hk))
        refine ⟨.data w j :: acts, s', st', by rw [State.run, hstep]; exact h1, h2, h3, fun v hv => ?_⟩
        rw [h4 v hv, upd_other _ _ _ hv]

private theorem tasks_after (p : Prog) (n w : Nat) (hn : n < p.num) : (p.tasks w).filter (fun i => decide (n ≤ i)) =
    if p.place n = w then n :: (p.tasks w).filter (fun i => decide (n + 1 ≤ i)) else (p.tasks w).filter (fun i => decide (n + 1 ≤ i)) := by
  have key : ∀ m, n < m → (List.range m).filter (fun i => decide (n ≤ i)) = n :: (List.range m).filter (fun i => decide (n + 1 ≤ i)) := by
    intro m hm
    induction m with
    | zero => omega
    | succ m ih =>
      rw [List.range_succ, List.filter_append, List.filter_append]
      by_cases h : n < m
      · rw [ih h]
        have h1 : n ≤ m := by omega
        have h2 : n + 1 ≤ m := by omega
        simp [h1, h2]
      · have : n = m := by omega
        subst this
        have e1 : (List.range n).filter (fun i => decide (n ≤ i)) = [] := by
          rw [List.filter_eq_nil_iff]; intro a ha; have := List.mem_range.1 ha; simp; omega
        have e2 : (List.range n).filter (fun i => decide (n + 1 ≤ i)) = [] := by
          rw [List.filter_eq_nil_iff]; intro a ha; have := List.mem_range.1 ha; simp; omega
        rw [e1, e2]; simp
  have comm : ∀ k, (p.tasks w).filter (fun i => decide (k ≤ i)) = ((List.range p.num).filter (fun i => decide (k ≤ i))).filter fun i => p.place i = w := by
    intro k
    rw [Prog.tasks, List.filter_filter, List.filter_filter]
    congr 1
    funext i
    exact Bool.and_comm _ _
  rw [comm n, comm (n + 1), key _ hn, List.filter_cons]
  simp

private theorem upTo (p : Prog) (hp : LastGood p) (n : Nat) (hn : n ≤ p.num) : ∃ acts s, (State.init p).run p acts = some s ∧ s.done = List.range n ∧
    ∀ w, ∃ store, s.workers w = ⟨((p.tasks w).filter (fun i => decide (n ≤ i))).map .exec ++ [.cancel], [], store, false⟩ := by
  induction n with
  | zero => exact ⟨[], _, rfl, rfl, fun w => ⟨[], by simp [State.init]⟩⟩
  | succ n ih =>
    obtain ⟨acts, s, h1, h2, h3⟩ := ih (by omega)
    obtain ⟨store, hw⟩ := h3 (p.place n)
    rw [tasks_after p n _ (by omega)] at hw
    simp only [if_true, List.map_cons, List.cons_append] at hw
    have hother : ∀ v, v ≠ p.place n → ∃ store, s.workers v =
        ⟨((p.tasks v).filter (fun i => decide (n + 1 ≤ i))).map .exec ++ [.cancel], [], store, false⟩ := by
      intro v hv
      obtain ⟨st, h⟩ := h3 v
      rw [tasks_after p n _ (by omega), if_neg (Ne.symm hv)] at h
      exact ⟨st, h⟩
    cases hready : p.ready store n with
    | true =>
      have hstep : s.step p (.read (p.place n)) = some (s.upd (p.place n) { s.workers (p.place n) with
          inbox := ((p.tasks (p.place n)).filter (fun i => decide (n + 1 ≤ i))).map .exec ++ [.cancel], pending := [], store := store ++ [n] }
          (s.done ++ [n])) := by
        simp only [State.step, hw, Bool.false_eq_true, if_false, hready, if_true, Prog.scan]
      refine ⟨acts ++ [.read (p.place n)], _, by rw [run_append, h1]; exact (by rw [State.run, hstep]; rfl : State.run p s [.read (p.place n)] = some _),
        by rw [upd_done, h2, List.range_succ], fun v => ?_⟩
      by_cases hv : v = p.place n
      · subst hv
        rw [upd_same, hw]
        exact ⟨_, rfl⟩
      · rw [upd_other _ _ _ hv]; exact hother v hv
    | false =>
      have hstep : s.step p (.read (p.place n)) = some (s.upd (p.place n) { s.workers (p.place n) with
          inbox := ((p.tasks (p.place n)).filter (fun i => decide (n + 1 ≤ i))).map .exec ++ [.cancel], pending := [n] } s.done) := by
        simp only [State.step, hw, Bool.false_eq_true, if_false, hready, List.nil_append]
      obtain ⟨bs, s', st', g1, g2, g3, g4⟩ := fill p (p.place n) n (((p.tasks (p.place n)).filter (fun i => decide (n + 1 ≤ i))).map .exec ++ [.cancel])
        (p.deps n) _ store (show (s.upd (p.place n) { s.workers (p.place n) with
          inbox := ((p.tasks (p.place n)).filter (fun i => decide (n + 1 ≤ i))).map .exec ++ [.cancel], pending := [n] } s.done).workers (p.place n) = _ by
          rw [upd_same, hw]) hready (fun j hj => by
            rw [upd_done, h2]; exact List.mem_range.2 ((hp n (by omega)).2 j hj)) (fun _ h _ => h) (fun _ h => h)
      refine ⟨acts ++ .read (p.place n) :: bs, s', by rw [run_append, h1]; simp [State.run, hstep, g1], by rw [g2, upd_done, h2, List.range_succ],
        fun v => ?_⟩
      by_cases hv : v = p.place n
      · subst hv; exact ⟨_, g3⟩
      · rw [g4 v hv, upd_other _ _ _ hv]; exact hother v hv

/-- C141 (part): in every program there is also a schedule in which all tasks are executed, even in the order of their submission.
Missing: the same for all schedules. -/
theorem C141_possible_partial (p : Prog) (hp : LastGood p) :
    ∃ acts s, (State.init p).run p acts = some s ∧ s.ended p ∧ ∀ i < p.num, i ∈ s.done := by
  obtain ⟨acts, s, h1, h2, _⟩ := upTo p hp p.num (Nat.le_refl _)
  obtain ⟨bs, t, g1, _, g3, g4⟩ := read_all p p.workers s
  exact ⟨acts ++ bs, t, by rw [run_append, h1]; exact g1, g3, fun i hi => g4 i (by rw [h2]; exact List.mem_range.2 hi)⟩

example : ((State.init exLast).run exLast [.read 0, .read 1, .data 1 0, .read 1, .read 1, .read 0, .read 1]).map
    (fun s => (s.done, (s.workers 0).inbox, (s.workers 1).inbox)) = some ([0, 1, 2, 3], [], []) := by decide

/-- C141 (part, multiprocessing): every worker executes its tasks in order, after the tasks that they depend on; what it has not executed is in its queue.
Missing: nothing of it is lost. -/
theorem C141_pymp_partial (p : Prog) (acts : List PympAct) (s : Pymp) (h : (Pymp.init p).run p acts = some s) :
    (∀ w, p.tasks w = s.done.filter (fun i => decide (p.place i = w)) ++ s.queues w) ∧
      ∀ pre i post, s.done = pre ++ i :: post → ∀ j ∈ p.deps i, j ∈ pre := by
  have hrun : ∀ (as bs : List PympAct) (t : Pymp), t.run p (as ++ bs) = (t.run p as).bind fun u => u.run p bs := by
    intro as
    induction as with
    | nil => intros; rfl
    | cons a as ih =>
      intro bs t
      simp only [List.cons_append, Pymp.run]
      cases t.step p a with
      | none => rfl
      | some u => exact ih bs u
  induction acts using List.reverseRecOn generalizing s with
  | nil => cases h; exact ⟨fun w => by simp [Pymp.init], by simp [Pymp.init]⟩
  | append_singleton as a ih =>
    rw [hrun, Option.bind_eq_some_iff] at h
    obtain ⟨t, ht, hs⟩ := h
    simp only [Pymp.run, Option.bind_eq_some_iff] at hs
    obtain ⟨u, hs, hu⟩ := hs
    cases hu
    obtain ⟨h1, h2⟩ := ih t ht
    cases a with
    | exit =>
      simp only [Pymp.step] at hs
      split at hs
      · cases hs
      · cases hs; exact ⟨h1, h2⟩
    | exec w =>
      simp only [Pymp.step] at hs
      split at hs
      · rename_i i rest he hq
        split at hs
        · rename_i hd
          cases hs
          have hpi : p.place i = w := (mem_tasks.1 (show i ∈ p.tasks w by rw [h1 w, hq]; simp)).2
          refine ⟨fun v => ?_, fun pre k post hk j hj => ?_⟩
          · by_cases hv : v = w
            · subst hv
              rw [h1 v, hq]
              simp [List.filter_append, hpi]
            · have : ¬ p.place i = v := by rw [hpi]; exact Ne.symm hv
              rw [h1 v]
              simp [List.filter_append, this, hv]
          · simp only at hk
            rcases List.eq_nil_or_concat post with rfl | ⟨q, y, rfl⟩
            · have := List.append_inj' hk rfl
              cases this.2
              rw [← this.1]
              simpa using (List.all_eq_true.1 hd) j hj
            · have hk' : t.done ++ [i] = (pre ++ k :: q) ++ [y] := by rw [hk]; simp
              exact h2 pre k q (List.append_inj' hk' rfl).1 j hj
        · cases hs
      · cases hs

example : ((Pymp.init exLast).run exLast [.exec 0, .exec 1, .exec 1, .exit]).map (fun s => (s.done, s.queues 0, s.queues 1)) = some ([0, 1, 2], [], [3]) := by
  decide

private theorem prun_append (p : Prog) : ∀ (as bs : List PympAct) (t : Pymp), t.run p (as ++ bs) = (t.run p as).bind fun u => u.run p bs := by
  intro as
  induction as with
  | nil => intros; rfl
  | cons a as ih =>
    intro bs t
    simp only [List.cons_append, Pymp.run]
    cases t.step p a with
    | none => rfl
    | some u => exact ih bs u

private theorem prun_ended (p : Prog) (acts : List PympAct) (s t : Pymp) (h : s.run p acts = some t) (hs : s.ended = false) (he : .exit ∉ acts) : t.ended = false := by
  induction acts generalizing s with
  | nil => cases h; exact hs
  | cons a as ih =>
    simp only [Pymp.run, Option.bind_eq_some_iff] at h
    obtain ⟨u, hu, h⟩ := h
    refine ih u h ?_ (fun hm => he (List.mem_cons_of_mem _ hm))
    cases a with
    | exit => exact absurd (List.mem_cons_self ..) he
    | exec w =>
      simp only [Pymp.step] at hu
      split at hu
      · split at hu
        · cases hu; exact hs
        · cases hu
      · cases hu

/-- On the multiprocessing backend the program may end at any time, also before any task is executed; nothing is executed afterwards. -/
theorem C141_pymp_violated (p : Prog) (acts : List PympAct) (s : Pymp) (h : (Pymp.init p).run p acts = some s) (he : .exit ∉ acts) :
    ∃ t, (Pymp.init p).run p (acts ++ [.exit]) = some t ∧ t.done = s.done ∧ ∀ more u, t.run p more = some u → u.done = s.done := by
  have he := prun_ended p acts _ s h rfl he
  refine ⟨{ s with ended := true }, by rw [prun_append, h]; simp [Pymp.run, Pymp.step, he], rfl, fun more u hu => ?_⟩
  cases more with
  | nil => cases hu; rfl
  | cons a more =>
    exfalso
    cases a <;> simp [Pymp.run, Pymp.step] at hu

example : ((Pymp.init exLast).run exLast [.exit]).map (·.done) = some [] ∧ ((Pymp.init exLast).run exLast [.exit, .exec 0]).isNone := by decide

/-- C141 (part, multiprocessing): as long as the program has not ended, all tasks can still be executed: no order of the executions blocks a worker for ever. -/
theorem C141_pymp_possible_partial (p : Prog) (hp : LastGood p) (acts : List PympAct) (s : Pymp) (h : (Pymp.init p).run p acts = some s)
    (he : .exit ∉ acts) : ∃ more t, (Pymp.init p).run p (acts ++ more) = some t ∧ .exit ∉ more ∧ ∀ i < p.num, i ∈ t.done := by
  obtain ⟨m, hm⟩ : ∃ m, ((List.range p.num).filter fun i => decide (i ∉ s.done)).length = m := ⟨_, rfl⟩
  induction m using Nat.strongRecOn generalizing acts s with
  | _ m ih =>
    by_cases hall : ∀ i < p.num, i ∈ s.done
    · exact ⟨[], s, by simpa using h, by simp, hall⟩
    · simp only [not_forall] at hall
      have hex : ∃ i, i < p.num ∧ i ∉ s.done := by obtain ⟨i, hi, hd⟩ := hall; exact ⟨i, hi, hd⟩
      classical
      obtain ⟨i, ⟨hi, hd⟩, hmin⟩ : ∃ i, (i < p.num ∧ i ∉ s.done) ∧ ∀ j < i, ¬ (j < p.num ∧ j ∉ s.done) := ⟨Nat.find hex, Nat.find_spec hex, fun j hj => Nat.find_min hex hj⟩
      have hbefore : ∀ j < i, j ∈ s.done := fun j hj => by
        have := hmin j hj
        by_cases hjd : j ∈ s.done
        · exact hjd
        · exact absurd ⟨by omega, hjd⟩ this
      obtain ⟨h1, -⟩ := C141_pymp_partial p acts s h
      have hend := prun_ended p acts _ s h rfl he
      have hiq : i ∈ s.queues (p.place i) := by
        have : i ∈ p.tasks (p.place i) := mem_tasks.2 ⟨hi, rfl⟩
        rw [h1] at this
        rcases List.mem_append.1 this with hm | hm
        · exact absurd (List.mem_filter.1 hm).1 hd
        · exact hm
      have hsorted : (p.tasks (p.place i)).Pairwise (· < ·) := List.Pairwise.filter _ List.pairwise_lt_range
      obtain ⟨rest, hq⟩ : ∃ rest, s.queues (p.place i) = i :: rest := by
        cases hq : s.queues (p.place i) with
        | nil => rw [hq] at hiq; cases hiq
        | cons k rest =>
          rw [hq] at hiq
          rcases List.mem_cons.1 hiq with rfl | hr
          · exact ⟨rest, rfl⟩
          · rw [h1, hq] at hsorted
            have hki := (List.pairwise_cons.1 (List.pairwise_append.1 hsorted).2.1).1 i hr
            have hkt : k ∈ s.done.filter fun j => decide (p.place j = p.place i) := by
              refine List.mem_filter.2 ⟨hbefore k hki, ?_⟩
              have : k ∈ p.tasks (p.place i) := by rw [h1, hq]; simp
              simpa using (mem_tasks.1 this).2
            exact absurd ((List.pairwise_append.1 hsorted).2.2 k hkt k (List.mem_cons_self ..)) (Nat.lt_irrefl _)
      have hready : ∀ j ∈ p.deps i, j ∈ s.done := fun j hj => hbefore j ((hp i hi).2 j hj)
      let u : Pymp := { s with queues := fun v => if v = p.place i then rest else s.queues v, done := s.done ++ [i] }
      have hu : (Pymp.init p).run p (acts ++ [.exec (p.place i)]) = some u := by
        rw [prun_append, h]
        simpa [Pymp.run, Pymp.step, hend, hq, u] using hready
      have hlt : ((List.range p.num).filter fun j => decide (j ∉ u.done)).length < m := by
        rw [← hm]
        have : ((List.range p.num).filter fun j => decide (j ∉ u.done)) =
            ((List.range p.num).filter fun j => decide (j ∉ s.done)).filter fun j => decide (j ≠ i) := by
          rw [List.filter_filter]
          refine List.filter_congr fun j _ => ?_
          by_cases hji : j = i
          · simp [u, hji]
          · simp [u, hji, and_comm]
        rw [this]
        refine List.length_filter_lt_length_iff_exists.2 ⟨i, List.mem_filter.2 ⟨List.mem_range.2 hi, decide_eq_true hd⟩, by simp⟩
      obtain ⟨more, t, g1, g2, g3⟩ := ih _ hlt _ u hu (by simp [he]) rfl
      exact ⟨.exec (p.place i) :: more, t, by simpa using g1, by simp [g2], g3⟩

/-- After two of the four tasks the others can be executed. -/
example : ((Pymp.init exLast).run exLast ([.exec 0, .exec 1] ++ [.exec 1, .exec 1])).map (fun s => (s.done, s.ended)) = some ([0, 1, 2, 3], false) := by
  decide

end Verif.Props
