import Verif.Model.Scheduler
import Mathlib.Algebra.Order.Ring.Nat
import Mathlib.Algebra.Order.Group.Nat
import Mathlib.Data.Nat.ModEq

/-! Helper lemmas for the scheduler. -/
namespace Verif.Sched

/-- The `t`-th element taken from the cycle. -/
def nth (l : List Nat) (t : Nat) : Option Nat := l[t % l.length]?

theorem scan_reserved (f : Nat) : ∀ s : RR, (s.scan f).2.reserved = s.reserved ∧ (s.scan f).2.workers = s.workers ∧
    (s.scan f).2.self = s.self := by
  induction f with
  | zero => simp [RR.scan]
  | succ f ih =>
    intro s
    simp only [RR.scan]
    split
    · simp
    · split
      · have := ih { s with taken := s.taken + 1 }
        simpa using this
      · simp

theorem schedule_fields (s : RR) : s.schedule.2.reserved = s.reserved ∧ s.schedule.2.workers = s.workers ∧
    s.schedule.2.self = s.self := scan_reserved _ s

theorem scan_ok (f : Nat) : ∀ (s : RR) (r : Nat) (s' : RR), s.scan f = (.ok r, s') →
    r ∈ s.workers ∧ r ≠ s.self ∧ r ∉ s.reserved := by
  induction f with
  | zero => intro s r s' h; simp [RR.scan] at h
  | succ f ih =>
    intro s r s' h
    simp only [RR.scan] at h
    split at h
    · simp at h
    · rename_i x hx
      split at h
      · have := ih _ _ _ h; simpa using this
      · rename_i hr
        simp only [Prod.mk.injEq, Except.ok.injEq] at h
        have hm : x ∈ s.cycle := List.mem_of_getElem? hx
        simp only [RR.cycle, ne_eq, decide_not, List.mem_filter, Bool.not_eq_true', decide_eq_false_iff_not] at hm
        rw [h.1] at hm hr
        exact ⟨hm.1, hm.2, hr⟩

theorem scan_blocked (f : Nat) : ∀ (s s' : RR), s.scan f = (.error .allBlocked, s') →
    ∀ t < f, ∀ r, nth s.cycle (s.taken + t) = some r → r ∈ s.reserved := by
  induction f with
  | zero => intro s s' _ t ht; omega
  | succ f ih =>
    intro s s' h t ht r hr
    simp only [RR.scan] at h
    split at h
    · simp at h
    · rename_i x hx
      split at h
      · rename_i hx2
        cases t with
        | zero =>
          have : nth s.cycle (s.taken + 0) = s.next := rfl
          rw [this, hx] at hr
          injection hr with hr
          exact hr ▸ hx2
        | succ t =>
          have := ih _ _ h t (by omega) r
          apply this
          have e : s.taken + (t + 1) = s.taken + 1 + t := by omega
          rw [e] at hr
          exact hr
      · simp at h

theorem exists_shift (m p i : Nat) (hi : i < m) : ∃ t < m, (p + t) % m = i := by
  have hm : 0 < m := by omega
  have hp : p % m < m := Nat.mod_lt _ hm
  by_cases h : p % m ≤ i
  · refine ⟨i - p % m, by omega, ?_⟩
    rw [Nat.add_mod, Nat.mod_eq_of_lt (show i - p % m < m by omega)]
    rw [show p % m + (i - p % m) = i by omega, Nat.mod_eq_of_lt hi]
  · refine ⟨m + i - p % m, by omega, ?_⟩
    rw [Nat.add_mod, Nat.mod_eq_of_lt (show m + i - p % m < m by omega)]
    rw [show p % m + (m + i - p % m) = m + i by omega]
    simp [Nat.mod_eq_of_lt hi]

theorem cycle_length_le (s : RR) : s.cycle.length ≤ s.workers.length := List.length_filter_le _ _

theorem schedule_blocked (s s' : RR) (h : s.schedule = (.error .allBlocked, s')) :
    ∀ w ∈ s.workers, w ≠ s.self → w ∈ s.reserved := by
  intro w hw hne
  have hm : w ∈ s.cycle := by simp [RR.cycle, hw, hne]
  obtain ⟨i, hi, he⟩ := List.mem_iff_getElem.1 hm
  obtain ⟨t, ht, hti⟩ := exists_shift s.cycle.length s.taken i hi
  have := cycle_length_le s
  refine scan_blocked _ s s' h t (by omega) w ?_
  simp only [nth, hti]
  rw [List.getElem?_eq_getElem hi, he]

theorem scan_stop (f : Nat) : ∀ (s s' : RR), s.scan f = (.error .stopIteration, s') → s.cycle = [] := by
  induction f with
  | zero => intro s s' h; simp [RR.scan] at h
  | succ f ih =>
    intro s s' h
    simp only [RR.scan] at h
    split at h
    · rename_i hn
      simp only [RR.next] at hn
      cases hc : s.cycle with
      | nil => rfl
      | cons a l =>
        exfalso
        rw [List.getElem?_eq_none_iff] at hn
        have : s.taken % s.cycle.length < s.cycle.length := Nat.mod_lt _ (by rw [hc]; simp)
        omega
    · split at h
      · have := ih _ _ h; simpa [RR.cycle] using this
      · simp at h

/-! ### Counting -/

/-- The ranks taken from the cycle in `L` steps from position `p`. -/
def segment (l : List Nat) (p L : Nat) : List Nat := (List.range L).filterMap fun t => nth l (p + t)

theorem segment_succ (l : List Nat) (p L : Nat) :
    segment l p (L + 1) = (nth l p).toList ++ segment l (p + 1) L := by
  simp only [segment, List.range_succ_eq_map, List.filterMap_cons, Nat.add_zero, List.filterMap_map]
  have : (fun t => nth l (p + t)) ∘ Nat.succ = fun t => nth l (p + 1 + t) := by
    funext t; simp only [Function.comp, Nat.succ_eq_add_one]; congr 1; omega
  rw [this]
  cases nth l p <;> simp

theorem segment_append (l : List Nat) (p L M : Nat) : segment l p (L + M) = segment l p L ++ segment l (p + L) M := by
  induction L generalizing p with
  | zero => simp [segment]
  | succ L ih =>
    rw [show L + 1 + M = L + M + 1 by omega, segment_succ, segment_succ, ih]
    rw [List.append_assoc, show p + 1 + L = p + (L + 1) by omega]

theorem scan_segment (f : Nat) : ∀ (s : RR) (r : Nat) (s' : RR), s.scan f = (.ok r, s') →
    ∃ L, s'.taken = s.taken + L ∧ [r] = (segment s.cycle s.taken L).filter (fun x => decide (x ∉ s.reserved)) ∧
      s' = { s with taken := s.taken + L } := by
  induction f with
  | zero => intro s r s' h; simp [RR.scan] at h
  | succ f ih =>
    intro s r s' h
    simp only [RR.scan] at h
    split at h
    · simp at h
    · rename_i x hx
      have hx' : nth s.cycle s.taken = some x := hx
      split at h
      · rename_i hr
        obtain ⟨L, h1, h2, h3⟩ := ih _ _ _ h
        refine ⟨L + 1, by simp only at h1; omega, ?_, ?_⟩
        · rw [segment_succ, hx']
          simp only [Option.toList_some, List.singleton_append, List.filter_cons]
          simp only [hr, not_true_eq_false, decide_false]
          exact h2
        · rw [h3]; simp only [RR.mk.injEq, true_and, and_true]; omega
      · rename_i hr
        simp only [Prod.mk.injEq, Except.ok.injEq] at h
        refine ⟨1, by rw [← h.2], ?_, h.2.symm⟩
        rw [segment_succ, hx']
        simp only [segment, List.range_zero, List.filterMap_nil, List.append_nil, Option.toList_some, List.filter_cons]
        rw [← h.1]
        simp [hr]

theorem scheduleMany_segment (k : Nat) : ∀ (s : RR) (ps : List Nat) (s' : RR), s.scheduleMany k = some (ps, s') →
    ∃ L, ps = (segment s.cycle s.taken L).filter (fun x => decide (x ∉ s.reserved)) ∧ s' = { s with taken := s.taken + L } ∧
      ps.length = k := by
  induction k with
  | zero =>
    intro s ps s' h
    simp only [RR.scheduleMany, Option.some.injEq, Prod.mk.injEq] at h
    exact ⟨0, by simp [segment, h.1.symm], h.2.symm, by simp [h.1.symm]⟩
  | succ k ih =>
    intro s ps s' h
    simp only [RR.scheduleMany] at h
    split at h
    · rename_i r s1 h1
      obtain ⟨L, -, h2, h3⟩ := scan_segment _ _ _ _ h1
      simp only [Option.map_eq_some_iff] at h
      obtain ⟨⟨qs, s2⟩, hq, hr⟩ := h
      simp only [Prod.mk.injEq] at hr
      obtain ⟨M, m1, m2, m3⟩ := ih _ _ _ hq
      subst h3
      refine ⟨L + M, ?_, ?_, ?_⟩
      · rw [segment_append, List.filter_append, ← h2, ← hr.1, m1]
        rfl
      · rw [← hr.2, m2]; simp only [RR.mk.injEq, true_and, and_true]; omega
      · rw [← hr.1]; simp [m3]
    · simp at h

theorem mod_hit (m i x : Nat) (hi : i < m) : x % m = i ↔ m ∣ (x + m - 1 - i) + 1 := by
  have hm : 0 < m := by omega
  have hp : x % m < m := Nat.mod_lt _ hm
  have hx := Nat.div_add_mod x m
  have e : (x + m - 1 - i) + 1 = m * (x / m) + (x % m + m - i) := by
    generalize m * (x / m) = y at hx ⊢; omega
  rw [e, Nat.dvd_add_right (Nat.dvd_mul_right m _)]
  constructor
  · intro h; rw [h]; exact ⟨1, by omega⟩
  · rintro ⟨c, hc⟩
    have : c = 1 := by
      rcases Nat.lt_trichotomy c 1 with h | h | h
      · have : c = 0 := by omega
        subst this; omega
      · exact h
      · have := Nat.mul_le_mul_left m h
        omega
    subst this
    omega

/-- Number of hits of index `i` among the positions before `x`. -/
theorem hits (m i : Nat) (hi : i < m) (x : Nat) :
    (List.range x).countP (fun t => decide (t % m = i)) = (x + m - 1 - i) / m := by
  induction x with
  | zero =>
    simp only [List.range_zero, List.countP_nil]
    rw [Nat.div_eq_of_lt (by omega)]
  | succ x ih =>
    rw [List.range_succ, List.countP_append, ih]
    rw [show x + 1 + m - 1 - i = (x + m - 1 - i) + 1 by omega, Nat.succ_div]
    by_cases h : x % m = i
    · rw [if_pos ((mod_hit m i x hi).1 h)]; simp [h]
    · rw [if_neg (fun hc => h ((mod_hit m i x hi).2 hc))]; simp [h]

theorem hits_window (m i p L : Nat) (hi : i < m) :
    (List.range L).countP (fun t => decide ((p + t) % m = i)) = (p + L + m - 1 - i) / m - (p + m - 1 - i) / m := by
  have h1 := hits m i hi (p + L)
  have h2 := hits m i hi p
  rw [List.range_add, List.countP_append, List.countP_map, h2] at h1
  have : (List.range L).countP ((fun t => decide (t % m = i)) ∘ fun x => p + x) =
      (List.range L).countP (fun t => decide ((p + t) % m = i)) := rfl
  rw [this] at h1
  omega

theorem hits_bounds (m i p L : Nat) (hi : i < m) :
    L / m ≤ (List.range L).countP (fun t => decide ((p + t) % m = i)) ∧
    (List.range L).countP (fun t => decide ((p + t) % m = i)) ≤ L / m + 1 := by
  have hm : 0 < m := by omega
  rw [hits_window m i p L hi]
  have e : p + L + m - 1 - i = (p + m - 1 - i) + L := by omega
  rw [e]
  generalize p + m - 1 - i = a
  rw [Nat.add_div (a := a) (b := L) hm]
  generalize a / m = u
  generalize L / m = v
  by_cases h : m ≤ a % m + L % m
  · rw [if_pos h]; omega
  · rw [if_neg h]; omega

/-- In a duplicate-free cycle the count of a rank in a segment is the number of hits of its index. -/
theorem count_segment (l : List Nat) (hn : l.Nodup) (p L i : Nat) (hi : i < l.length) :
    (segment l p L).count l[i] = (List.range L).countP (fun t => decide ((p + t) % l.length = i)) := by
  induction L generalizing p with
  | zero => simp [segment]
  | succ L ih =>
    have hm : p % l.length < l.length := Nat.mod_lt _ (by omega)
    have hnth : nth l p = some l[p % l.length] := List.getElem?_eq_getElem hm
    rw [segment_succ, List.count_append, ih, hnth, List.range_succ_eq_map, List.countP_cons, List.countP_map]
    have e : ((fun t => decide ((p + t) % l.length = i)) ∘ Nat.succ) = fun t => decide ((p + 1 + t) % l.length = i) := by
      funext t; simp only [Function.comp, Nat.succ_eq_add_one]
      rw [show p + (t + 1) = p + 1 + t by omega]
    rw [e]
    simp only [Option.toList_some, Nat.add_zero, List.count_singleton]
    have : (l[p % l.length] == l[i]) = decide (p % l.length = i) := by
      by_cases h : p % l.length = i
      · simp [h]
      · simp only [h, decide_false, beq_eq_false_iff_ne, ne_eq]
        intro hc
        exact h ((List.getElem_inj hn).1 hc)
    rw [this]
    omega

end Verif.Sched

namespace Verif.Sched

theorem schedule_total (s : RR) (w : Nat) (hw : w ∈ s.workers) (hs : w ≠ s.self) (hr : w ∉ s.reserved) :
    ∃ r s', s.schedule = (.ok r, s') := by
  cases h : s.schedule with
  | mk e s' =>
    cases e with
    | ok r => exact ⟨r, s', rfl⟩
    | error e =>
      cases e with
      | allBlocked => exact absurd (schedule_blocked s s' h w hw hs) hr
      | stopIteration =>
        have := scan_stop _ _ _ h
        have hm : w ∈ s.cycle := by simp [RR.cycle, hw, hs]
        rw [this] at hm
        simp at hm

theorem scheduleMany_total (k : Nat) : ∀ (s : RR) (w : Nat), w ∈ s.workers → w ≠ s.self → w ∉ s.reserved →
    ∃ ps s', s.scheduleMany k = some (ps, s') := by
  induction k with
  | zero => intro s w _ _ _; exact ⟨[], s, rfl⟩
  | succ k ih =>
    intro s w hw hs hr
    obtain ⟨r, s1, h1⟩ := schedule_total s w hw hs hr
    obtain ⟨f1, f2, f3⟩ := schedule_fields s
    rw [h1] at f1 f2 f3
    obtain ⟨ps, s2, h2⟩ := ih s1 w (by rw [f2]; exact hw) (by rw [f3]; exact hs) (by rw [f1]; exact hr)
    exact ⟨r :: ps, s2, by simp [RR.scheduleMany, h1, h2]⟩

/-- The free workers of a scheduler. -/
def RR.free (s : RR) : List Nat := s.workers.filter fun w => decide (w ≠ s.self ∧ w ∉ s.reserved)

theorem count_placements (s s' : RR) (k : Nat) (ps : List Nat) (hn : s.workers.Nodup)
    (h : s.scheduleMany k = some (ps, s')) : ∃ L, ∀ w ∈ s.free,
      L / s.cycle.length ≤ ps.count w ∧ ps.count w ≤ L / s.cycle.length + 1 := by
  obtain ⟨L, h1, -, -⟩ := scheduleMany_segment k s ps s' h
  refine ⟨L, fun w hw => ?_⟩
  simp only [RR.free, List.mem_filter, decide_eq_true_eq] at hw
  have hm : w ∈ s.cycle := by simp [RR.cycle, hw.1, hw.2.1]
  have hnc : s.cycle.Nodup := hn.filter _
  obtain ⟨i, hi, he⟩ := List.mem_iff_getElem.1 hm
  have hc : ps.count w = (segment s.cycle s.taken L).count w := by
    rw [h1, List.count_filter]
    simp [hw.2.2]
  rw [hc, ← he, count_segment s.cycle hnc _ _ _ hi]
  exact hits_bounds _ _ _ _ hi

theorem placements_free (s s' : RR) (k : Nat) (ps : List Nat) (h : s.scheduleMany k = some (ps, s')) :
    ∀ r ∈ ps, r ∈ s.free := by
  obtain ⟨L, h1, -, -⟩ := scheduleMany_segment k s ps s' h
  intro r hr
  rw [h1, List.mem_filter] at hr
  obtain ⟨t, -, ht⟩ := List.mem_filterMap.1 hr.1
  have hm : r ∈ s.cycle := List.mem_of_getElem? ht
  have hnr : r ∉ s.reserved := by simpa using hr.2
  simp only [RR.cycle, ne_eq, decide_not, List.mem_filter, Bool.not_eq_true', decide_eq_false_iff_not] at hm
  simp [RR.free, hm.1, hm.2, hnr]

/-! ### Actors -/

/-- The reservations are exactly the live handles; the worker list and own rank do not change. -/
structure Inv (p : Proc) : Prop where
  perm : p.rr.reserved.Perm p.handles

theorem mem_eraseIdx_perm {l : List Nat} {i r : Nat} (h : l[i]? = some r) : l.Perm (r :: l.eraseIdx i) := by
  induction l generalizing i with
  | nil => simp at h
  | cons a t ih =>
    cases i with
    | zero => simp at h; subst h; simp
    | succ i =>
      simp only [List.getElem?_cons_succ] at h
      simp only [List.eraseIdx_cons_succ]
      exact ((ih h).cons a).trans (List.Perm.swap _ _ _)

theorem inv_step {p : Proc} (h : Inv p) (o : Op) : Inv (p.step o).2 ∧ (p.step o).1 ≠ .releaseError ∧
    (∀ r, (p.step o).1 = .placed r → r ∈ p.rr.workers ∧ r ≠ p.rr.self ∧ r ∉ p.handles) ∧
    (p.step o).2.rr.workers = p.rr.workers ∧ (p.step o).2.rr.self = p.rr.self := by
  have hp := h.perm
  obtain ⟨f1, f2, f3⟩ := schedule_fields p.rr
  cases o with
  | submit =>
    simp only [Proc.step]
    split <;> rename_i hs
    · rename_i r s
      have := scan_ok _ _ _ _ hs
      rw [hs] at f1 f2 f3
      refine ⟨⟨by simp only at f1 ⊢; rw [f1]; exact hp⟩, by simp, ?_, f2, f3⟩
      intro r' hr'
      simp only [Effect.placed.injEq] at hr'
      subst hr'
      exact ⟨this.1, this.2.1, fun hc => this.2.2 (hp.mem_iff.2 hc)⟩
    · rw [hs] at f1 f2 f3
      exact ⟨⟨by simp only at f1 ⊢; rw [f1]; exact hp⟩, by simp, by simp, f2, f3⟩
  | create =>
    simp only [Proc.step]
    split <;> rename_i hs
    · rename_i r s
      have := scan_ok _ _ _ _ hs
      rw [hs] at f1 f2 f3
      refine ⟨⟨?_⟩, by simp, ?_, f2, f3⟩
      · simp only [RR.reserve]
        simp only at f1
        rw [f1]
        exact hp.append_right _
      · intro r' hr'
        simp only [Effect.placed.injEq] at hr'
        subst hr'
        exact ⟨this.1, this.2.1, fun hc => this.2.2 (hp.mem_iff.2 hc)⟩
    · rw [hs] at f1 f2 f3
      exact ⟨⟨by simp only at f1 ⊢; rw [f1]; exact hp⟩, by simp, by simp, f2, f3⟩
  | adopt r =>
    refine ⟨⟨?_⟩, by simp [Proc.step], by simp [Proc.step], rfl, rfl⟩
    simp only [Proc.step, RR.reserve]
    exact hp.append_right _
  | drop i =>
    simp only [Proc.step]
    split
    · exact ⟨h, by simp, by simp, rfl, rfl⟩
    · rename_i r hr
      have hmem : r ∈ p.rr.reserved := hp.mem_iff.2 (List.mem_of_getElem? hr)
      simp only [RR.release, hmem, if_true]
      refine ⟨⟨?_⟩, by simp, by simp, by simp, by simp⟩
      simp only
      have h1 := (hp.trans (mem_eraseIdx_perm hr)).erase r
      simpa using h1

theorem inv_run (ops : List Op) : ∀ {p : Proc}, Inv p → Inv (p.run ops).2 ∧
    (p.run ops).2.rr.workers = p.rr.workers ∧ (p.run ops).2.rr.self = p.rr.self ∧
    ∀ hs e, (hs, e) ∈ (p.run ops).1 → e ≠ .releaseError ∧
      ∀ r, e = .placed r → r ∈ p.rr.workers ∧ r ≠ p.rr.self ∧ r ∉ hs := by
  induction ops with
  | nil => intro p h; exact ⟨h, rfl, rfl, by simp [Proc.run]⟩
  | cons o os ih =>
    intro p h
    obtain ⟨s1, s2, s3, s4, s5⟩ := inv_step h o
    obtain ⟨t1, t2, t3, t4⟩ := ih s1
    refine ⟨t1, t2.trans s4, t3.trans s5, ?_⟩
    intro hs e hm
    simp only [Proc.run, List.mem_cons, Prod.mk.injEq] at hm
    rcases hm with ⟨rfl, rfl⟩ | hm
    · exact ⟨s2, s3⟩
    · have := t4 hs e hm
      rw [s4, s5] at this
      exact this

end Verif.Sched
