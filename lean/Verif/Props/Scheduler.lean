import Verif.Lemmas.Scheduler
import Mathlib.Data.List.Perm.Subperm

/-! Properties C23, C24, C25, C26: placement of tasks and actors on MPI workers. -/
namespace Verif.Props
open Verif.Sched

/-- C23: a scheduled rank is a worker, is not the calling process and is not reserved. -/
theorem C23_only_free_workers (s s' : RR) (r : Nat) (h : s.schedule = (.ok r, s')) :
    r ∈ s.workers ∧ r ≠ s.self ∧ r ∉ s.reserved := scan_ok _ _ _ _ h

/-- C23: if scheduling fails, every worker other than the calling process is reserved. -/
theorem C23_fails_only_if_all_blocked (s s' : RR) (e : Err) (h : s.schedule = (.error e, s')) :
    ∀ w ∈ s.workers, w ≠ s.self → w ∈ s.reserved := by
  intro w hw hs
  by_cases hr : w ∈ s.reserved
  · exact hr
  · obtain ⟨r, s1, h1⟩ := schedule_total s w hw hs hr
    rw [h1] at h
    simp at h

example : (RR.mk 3 [2, 3, 4, 5] 7 [2, 4]).schedule = (.ok 5, ⟨3, [2, 3, 4, 5], 9, [2, 4]⟩) := by decide
example : ((RR.mk 3 [2, 3, 4, 5] 7 [2, 4, 5]).schedule).1 = .error .allBlocked := by decide

/-- C24: with any fixed set of reserved workers, the numbers of placements on any two free workers differ by at most
one after any number of submissions from any position of the rotation. -/
theorem C24_fair (s s' : RR) (k : Nat) (ps : List Nat) (hn : s.workers.Nodup) (h : s.scheduleMany k = some (ps, s'))
    (a b : Nat) (ha : a ∈ s.workers ∧ a ≠ s.self ∧ a ∉ s.reserved) (hb : b ∈ s.workers ∧ b ≠ s.self ∧ b ∉ s.reserved) :
    ps.length = k ∧ ps.count a ≤ ps.count b + 1 := by
  obtain ⟨L, hL⟩ := count_placements s s' k ps hn h
  obtain ⟨-, -, -, hk⟩ := scheduleMany_segment k s ps s' h
  have h1 := hL a (by simp [RR.free, ha])
  have h2 := hL b (by simp [RR.free, hb])
  exact ⟨hk, by omega⟩

/-- C24: as many submissions as there are free workers use each of them exactly once, and they do not fail if there is
a free worker. -/
theorem C24_full_round (s : RR) (hn : s.workers.Nodup)
    (w : Nat) (hw : w ∈ s.workers ∧ w ≠ s.self ∧ w ∉ s.reserved) :
    ∃ ps s', s.scheduleMany (s.workers.filter fun w => decide (w ≠ s.self ∧ w ∉ s.reserved)).length = some (ps, s') ∧
      ps.Perm (s.workers.filter fun w => decide (w ≠ s.self ∧ w ∉ s.reserved)) := by
  obtain ⟨ps, s', h⟩ := scheduleMany_total s.free.length s w hw.1 hw.2.1 hw.2.2
  refine ⟨ps, s', h, ?_⟩
  obtain ⟨L, hL⟩ := count_placements s s' _ ps hn h
  obtain ⟨-, -, -, hk⟩ := scheduleMany_segment _ s ps s' h
  have hsub := placements_free s s' _ ps h
  have hfn : s.free.Nodup := hn.filter _
  -- no worker is missing
  have hall : ∀ x ∈ s.free, x ∈ ps := by
    intro x hx
    apply Classical.byContradiction
    intro hno
    have h0 : ps.count x = 0 := List.count_eq_zero.2 hno
    have hb := hL x hx
    have hnd : ps.Nodup := by
      rw [List.nodup_iff_count]
      intro y
      by_cases hy : y ∈ ps
      · have := hL y (hsub y hy); omega
      · rw [List.count_eq_zero.2 hy]; omega
    have hle : (x :: ps).length ≤ s.free.length := by
      apply List.Subperm.length_le
      apply List.Nodup.subperm
      · exact List.nodup_cons.2 ⟨hno, hnd⟩
      · intro y hy
        rcases List.mem_cons.1 hy with rfl | hy
        · exact hx
        · exact hsub y hy
    simp at hle
    omega
  have hsp : s.free.Subperm ps := hfn.subperm (fun x hx => hall x hx)
  exact (hsp.perm_of_length_le (by omega)).symm

example : ((RR.mk 0 [2, 3, 4] 1 [3]).scheduleMany 5).map (·.1) = some [4, 2, 4, 2, 4] := by decide

/-- C25: in every history of one process (submissions, actor creations, further handles, dropped handles), nothing is
placed on a worker on which the process has a live actor handle, and dropping a handle never fails. -/
theorem C25_actor_keeps_worker (self : Nat) (workers : List Nat) (ops : List Op) (live : List Nat) (e : Effect)
    (h : (live, e) ∈ ((Proc.init self workers).run ops).1) :
    e ≠ .releaseError ∧ ∀ r, e = .placed r → r ∈ workers ∧ r ≠ self ∧ r ∉ live :=
  (inv_run ops (p := Proc.init self workers) ⟨by simp [Proc.init]⟩).2.2.2 live e h

/-- C25: a worker without live handles is used again: the next full round of submissions places a task on it. -/
theorem C25_released_worker_used_again (self : Nat) (workers : List Nat) (hn : workers.Nodup) (ops : List Op) (w : Nat)
    (hw : w ∈ workers) (hs : w ≠ self) (hfree : w ∉ ((Proc.init self workers).run ops).2.handles) :
    ∃ k ps s', k ≤ workers.length ∧ ((Proc.init self workers).run ops).2.rr.scheduleMany k = some (ps, s') ∧ w ∈ ps := by
  obtain ⟨h1, h2, h3, -⟩ := inv_run ops (p := Proc.init self workers) ⟨by simp [Proc.init]⟩
  simp only [Proc.init] at h2 h3
  have hw' : w ∈ ((Proc.init self workers).run ops).2.rr.workers := by simp only [Proc.init]; rw [h2]; exact hw
  have hs' : w ≠ ((Proc.init self workers).run ops).2.rr.self := by simp only [Proc.init]; rw [h3]; exact hs
  have hr' : w ∉ ((Proc.init self workers).run ops).2.rr.reserved := fun hc => hfree (h1.perm.mem_iff.1 hc)
  have hn' : ((Proc.init self workers).run ops).2.rr.workers.Nodup := by simp only [Proc.init]; rw [h2]; exact hn
  obtain ⟨ps, s', g1, g2⟩ := C24_full_round _ hn' w ⟨hw', hs', hr'⟩
  refine ⟨_, ps, s', ?_, g1, g2.mem_iff.2 ?_⟩
  · refine Nat.le_trans (List.length_filter_le _ _) ?_
    simp only [Proc.init] at *
    rw [h2]
  · rw [List.mem_filter]
    exact ⟨hw', by simp [hs', hr']⟩

example : ((Proc.init 0 [2, 3, 4]).run [.create, .submit, .create, .submit, .drop 0, .submit, .submit]).1.map (·.2) =
    [.placed 2, .placed 3, .placed 4, .placed 3, .none, .placed 2, .placed 3] := by decide

/-- C26, full statement: in every history of several processes nothing is placed on a worker on which any process has a
live actor handle. -/
def C26_full : Prop := ∀ (workers procs : List Nat) (ops : List (Nat × Op)) (p : Nat) (live : List Nat) (r : Nat),
  (p, live, .placed r) ∈ runCluster procs (fun p => Proc.init p workers) ops → r ∉ live

/-- The code violates C26: the root creates an actor on worker 2 and worker 3 then submits a task, which goes to
worker 2. -/
theorem C26_violated : ¬ C26_full := by
  intro h
  exact h [2, 3] [0, 2, 3] [(0, .create), (3, .submit)] 3 [2] 2 (by decide) (by decide)

/-- C26, proved part: in every history of all processes, a placement by process `p` is on a worker other than `p` and
avoids the workers on which `p` itself has live handles. Missing: handles held by other processes (see `C26_violated`). -/
theorem C26_own_actors_partial (workers : List Nat) (ops : List (Nat × Op)) (p : Nat) (live : List Nat) (r : Nat)
    (h : (p, live, .placed r) ∈ runCluster [p] (fun q => Proc.init q workers) ops) :
    r ∈ workers ∧ r ≠ p ∧ r ∉ live := by
  have key : ∀ (ops : List (Nat × Op)) (c : Cluster),
      (∀ q, Inv (c q) ∧ (c q).rr.workers = workers ∧ (c q).rr.self = q) →
      (p, live, .placed r) ∈ runCluster [p] c ops → r ∈ workers ∧ r ≠ p ∧ r ∉ live := by
    intro ops
    induction ops with
    | nil => intro c _ h; simp [runCluster] at h
    | cons x t ih =>
      intro c hc h
      obtain ⟨q, o⟩ := x
      obtain ⟨c1, c2, c3⟩ := hc q
      obtain ⟨s1, s2, s3, s4, s5⟩ := inv_step c1 o
      simp only [runCluster, List.flatMap_cons, List.flatMap_nil, List.append_nil, List.mem_cons, Prod.mk.injEq] at h
      rcases h with ⟨rfl, rfl, he⟩ | h
      · have := s3 r he.symm
        rw [c2, c3] at this
        exact this
      · refine ih _ ?_ h
        intro z
        by_cases hz : z = q
        · subst hz; simp only [if_true]; exact ⟨s1, s4.trans c2, s5.trans c3⟩
        · simp only [hz, if_false]; exact hc z
  exact key ops _ (fun q => ⟨⟨by simp [Proc.init]⟩, rfl, rfl⟩) h

/-- C26, proved part: if no other process has a handle of an actor, made or received, then nothing that `p` places is on the worker of any actor.
Missing: handles held by other processes. -/
theorem C26_one_creator_partial (workers procs : List Nat) (ops : List (Nat × Op)) (p : Nat) (live : List Nat) (r : Nat)
    (hops : ∀ q o, (q, o) ∈ ops → q ≠ p → o = .submit ∨ ∃ i, o = .drop i)
    (h : (p, live, .placed r) ∈ runCluster procs (fun q => Proc.init q workers) ops) : r ∉ live := by
  have key : ∀ (ops : List (Nat × Op)) (c : Cluster), (∀ q o, (q, o) ∈ ops → q ≠ p → o = .submit ∨ ∃ i, o = .drop i) →
      Inv (c p) → (∀ q, q ≠ p → (c q).handles = []) → (p, live, .placed r) ∈ runCluster procs c ops → r ∉ live := by
    intro ops
    induction ops with
    | nil => intro c _ _ _ h; simp [runCluster] at h
    | cons x t ih =>
      intro c hops hi hq h
      obtain ⟨q, o⟩ := x
      simp only [runCluster, List.mem_cons, Prod.mk.injEq] at h
      rcases h with ⟨rfl, rfl, he⟩ | h
      · intro hm
        obtain ⟨z, -, hz⟩ := List.mem_flatMap.1 hm
        by_cases e : z = p
        · rw [e] at hz
          exact ((inv_step hi o).2.2.1 r he.symm).2.2 hz
        · rw [hq z e] at hz; cases hz
      · refine ih _ (fun q' o' hm => hops q' o' (List.mem_cons_of_mem _ hm)) ?_ ?_ h
        · by_cases e : p = q
          · subst e; simpa using (inv_step hi o).1
          · simpa [e] using hi
        · intro z hz
          by_cases e : z = q
          · subst e
            simp only [if_true]
            rcases hops z o (by simp) hz with rfl | ⟨i, rfl⟩
            · simp only [Proc.step]
              cases (c z).rr.schedule with
              | mk a b => cases a <;> exact hq z hz
            · simp [Proc.step, hq z hz]
          · simp only [e, if_false]
            exact hq z hz
  exact key ops _ hops ⟨by simp [Proc.init]⟩ (fun _ _ => rfl) h

example : runCluster [0, 3] (fun p => Proc.init p [2, 3, 4]) [(0, .create), (3, .submit), (0, .submit), (0, .submit), (0, .submit)] =
    [(0, [], .placed 2), (3, [2], .placed 2), (0, [2], .placed 3), (0, [2], .placed 4), (0, [2], .placed 3)] := by decide

example : runCluster [0] (fun p => Proc.init p [2, 3]) [(0, .create), (3, .submit), (0, .submit)] =
    [(0, [], .placed 2), (3, [2], .placed 2), (0, [2], .placed 3)] := by decide

end Verif.Props
