import Verif.Model.Dask
import Mathlib.Data.List.Perm.Subperm
import Mathlib.Tactic.Tauto

/-! Properties of the Dask backend (C74, C75, C84). -/
namespace Verif.Dask

theorem moveBack_eq {n : Nat} : ∀ (fuel : Nat) (done notDone : List Nat), n ≤ done.length → done.length ≤ fuel + n →
    moveBack n fuel done notDone = (done.take n, notDone ++ (done.drop n).reverse) := by
  intro fuel
  induction fuel with
  | zero =>
    intro done notDone h1 h2
    have e : done.length = n := by omega
    unfold moveBack
    rw [if_pos e]
    simp [← e]
  | succ fuel ih =>
    intro done notDone h1 h2
    unfold moveBack
    by_cases e : done.length = n
    · rw [if_pos e]; simp [← e]
    · rw [if_neg e]
      rcases List.eq_nil_or_concat done with rfl | ⟨l, x, rfl⟩
      · simp at h1; simp [h1] at e
      · simp only [List.concat_eq_append, List.length_append, List.length_singleton] at h1 h2 e
        simp only [List.concat_eq_append, List.getLast?_append, List.getLast?_singleton, Option.some_or, List.dropLast_concat]
        rw [ih l (notDone ++ [x]) (by omega) (by omega), List.take_append_of_le_length (by omega), List.drop_append_of_le_length (by omega)]
        simp

theorem finishedBy_mono {completion : Nat → Option Nat} {t t' f : Nat} (h : t ≤ t') (hf : finishedBy completion t f = true) :
    finishedBy completion t' f = true := by
  unfold finishedBy at hf ⊢
  cases hc : completion f with
  | none => rw [hc] at hf; simp at hf
  | some c => rw [hc] at hf; simp at hf ⊢; omega

theorem finishedBy_some {completion : Nat → Option Nat} {t f : Nat} (hf : finishedBy completion t f = true) : (completion f).isSome = true := by
  unfold finishedBy at hf
  cases hc : completion f with
  | none => rw [hc] at hf; simp at hf
  | some c => rfl

/-- One call of `wait` on different futures, one of which finishes. -/
theorem waitFirst_spec {completion : Nat → Option Nat} {now delay : Nat} {fs : List Nat} (hn : fs.Nodup)
    (hex : ∃ f ∈ fs, (completion f).isSome = true) :
    ∃ t done notDone, waitFirst completion now delay fs = some (t, done, notDone) ∧ now ≤ t ∧ List.Perm (done ++ notDone) fs ∧
      (∀ f ∈ done, finishedBy completion t f = true) ∧ done ≠ [] ∧ notDone.Nodup := by
  obtain ⟨f, hf, hc⟩ := hex
  obtain ⟨c, hc⟩ := Option.isSome_iff_exists.1 hc
  have hmem : c ∈ fs.filterMap completion := List.mem_filterMap.2 ⟨f, hf, hc⟩
  cases hmin : (fs.filterMap completion).min? with
  | none => rw [List.min?_eq_none_iff] at hmin; rw [hmin] at hmem; simp at hmem
  | some t =>
    simp only [waitFirst, hmin, hn.dedup]
    refine ⟨_, _, _, rfl, by omega, List.filter_append_perm _ fs, by simp, ?_, hn.filter _⟩
    have ht := (List.min?_mem hmin)
    obtain ⟨g, hg, hgc⟩ := List.mem_filterMap.1 ht
    apply List.ne_nil_of_mem (a := g)
    rw [List.mem_filter]
    refine ⟨hg, ?_⟩
    simp [finishedBy, hgc]
    omega

theorem collect_spec {completion : Nat → Option Nat} {n : Nat} {delays : Nat → Nat} : ∀ (fuel now : Nat) (done notDone : List Nat),
    notDone.length ≤ fuel → notDone.Nodup → (∀ f ∈ done, finishedBy completion now f = true) →
    n ≤ ((done ++ notDone).filter fun f => (completion f).isSome).length →
    ∃ t d r, collect completion n fuel now delays done notDone = some (t, d, r) ∧ n ≤ d.length ∧ List.Perm (d ++ r) (done ++ notDone) ∧
      (∀ f ∈ d, finishedBy completion t f = true) ∧ now ≤ t := by
  intro fuel
  induction fuel with
  | zero =>
    intro now done notDone h1 h2 h3 h4
    have : notDone = [] := List.length_eq_zero_iff.1 (by omega)
    subst this
    have h5 := List.length_filter_le (fun f => (completion f).isSome) (done ++ [])
    simp only [List.append_nil] at h4 h5
    unfold collect
    rw [if_pos (by omega)]
    exact ⟨_, _, _, rfl, by omega, List.Perm.refl _, h3, Nat.le_refl _⟩
  | succ fuel ih =>
    intro now done notDone h1 h2 h3 h4
    unfold collect
    by_cases e : n ≤ done.length
    · rw [if_pos e]
      exact ⟨_, _, _, rfl, e, List.Perm.refl _, h3, Nat.le_refl _⟩
    · rw [if_neg e]
      have hex : ∃ f ∈ notDone, (completion f).isSome = true := by
        rw [List.filter_append, List.length_append] at h4
        have h5 := List.length_filter_le (fun f => (completion f).isSome) done
        have : 0 < (notDone.filter fun f => (completion f).isSome).length := by omega
        obtain ⟨f, hf⟩ := List.exists_mem_of_length_pos this
        rw [List.mem_filter] at hf
        exact ⟨f, hf⟩
      obtain ⟨t, d, r, k1, k2, k3, k4, k5, k6⟩ := waitFirst_spec (now := now) (delay := delays fuel) h2 hex
      simp only [k1]
      have hlen := k3.length_eq
      rw [List.length_append] at hlen
      have hd := List.length_pos_of_ne_nil k5
      have hperm : List.Perm ((done ++ d) ++ r) (done ++ notDone) := by rw [List.append_assoc]; exact k3.append_left done
      obtain ⟨t', d', r', q1, q2, q3, q4, q5⟩ := ih t (done ++ d) r (by omega) k6 (by
        intro f hf
        rcases List.mem_append.1 hf with hf | hf
        · exact finishedBy_mono k2 (h3 f hf)
        · exact k4 f hf) (by
        rw [(hperm.filter _).length_eq]; exact h4)
      exact ⟨t', d', r', q1, q2, q3.trans hperm, q4, by omega⟩

/-- What a call of `wait` gives, if it returns. -/
theorem waitFirst_perm {completion : Nat → Option Nat} {now delay : Nat} {fs done notDone : List Nat} {t : Nat} (hn : fs.Nodup)
    (h : waitFirst completion now delay fs = some (t, done, notDone)) :
    List.Perm (done ++ notDone) fs ∧ (∀ f ∈ done, (completion f).isSome = true) ∧ notDone.Nodup := by
  unfold waitFirst at h
  split at h
  · split at h
    · simp only [Option.some.injEq, Prod.mk.injEq] at h
      obtain ⟨-, rfl, rfl⟩ := h
      rename_i e
      subst e
      exact ⟨.refl _, by simp, by simp⟩
    · cases h
  · simp only [Option.some.injEq, Prod.mk.injEq, hn.dedup] at h
    obtain ⟨-, rfl, rfl⟩ := h
    refine ⟨List.filter_append_perm _ fs, ?_, hn.filter _⟩
    intro f hf
    exact finishedBy_some (List.mem_filter.1 hf).2

theorem collect_perm {completion : Nat → Option Nat} {n : Nat} {delays : Nat → Nat} : ∀ (fuel now : Nat) (done notDone : List Nat)
    (t : Nat) (d r : List Nat), notDone.Nodup → (∀ f ∈ done, (completion f).isSome = true) →
    collect completion n fuel now delays done notDone = some (t, d, r) →
    n ≤ d.length ∧ List.Perm (d ++ r) (done ++ notDone) ∧ ∀ f ∈ d, (completion f).isSome = true := by
  intro fuel
  induction fuel with
  | zero =>
    intro now done notDone t d r h1 h2 h3
    unfold collect at h3
    split at h3
    · simp only [Option.some.injEq, Prod.mk.injEq] at h3
      obtain ⟨-, rfl, rfl⟩ := h3
      exact ⟨by assumption, .refl _, h2⟩
    · cases h3
  | succ fuel ih =>
    intro now done notDone t d r h1 h2 h3
    unfold collect at h3
    split at h3
    · simp only [Option.some.injEq, Prod.mk.injEq] at h3
      obtain ⟨-, rfl, rfl⟩ := h3
      exact ⟨by assumption, .refl _, h2⟩
    · simp only at h3
      split at h3
      · cases h3
      · rename_i now' extra notDone' hw
        obtain ⟨p1, p2, p3⟩ := waitFirst_perm h1 hw
        obtain ⟨q1, q2, q3⟩ := ih now' (done ++ extra) notDone' t d r p3 (by
          intro f hf
          rcases List.mem_append.1 hf with hf | hf
          · exact h2 f hf
          · exact p2 f hf) h3
        refine ⟨q1, q2.trans ?_, q3⟩
        rw [List.append_assoc]
        exact p1.append_left done

theorem min_dedup (completion : Nat → Option Nat) (fs : List Nat) : (fs.dedup.filterMap completion).min? = (fs.filterMap completion).min? := by
  have hm : ∀ a, a ∈ fs.dedup.filterMap completion ↔ a ∈ fs.filterMap completion := by simp [List.mem_filterMap]
  cases h : (fs.filterMap completion).min? with
  | none =>
    rw [List.min?_eq_none_iff] at h ⊢
    exact List.eq_nil_iff_forall_not_mem.2 fun a ha => by have := (hm a).1 ha; rw [h] at this; simp at this
  | some t =>
    rw [List.min?_eq_some_iff] at h ⊢
    exact ⟨(hm t).2 h.1, fun b hb => h.2 b ((hm b).1 hb)⟩

theorem waitFirst_dedup (completion : Nat → Option Nat) (now delay : Nat) (fs : List Nat) :
    waitFirst completion now delay fs.dedup = waitFirst completion now delay fs := by
  unfold waitFirst
  rw [min_dedup, List.dedup_idem]
  simp only [List.dedup_eq_nil]

/-- The CPU count of an address. -/
def cpu (r : Resources) (a : String) : Nat := ((r.find? (·.1 = a)).map (·.2)).getD 0

theorem cpu_cons (h : String) (c : Nat) (r : Resources) (a : String) : cpu ((h, c) :: r) a = if h = a then c else cpu r a := by
  by_cases e : h = a <;> simp [cpu, e]

theorem cpu_addThreads (r : Resources) (h : String) (t : Nat) (a : String) : cpu (addThreads r h t) a = cpu r a + if h = a then t else 0 := by
  induction r with
  | nil => by_cases e : h = a <;> simp [addThreads, cpu, e]
  | cons p r ih =>
    obtain ⟨b, c⟩ := p
    simp only [addThreads]
    by_cases e1 : b = h
    · subst e1
      rw [if_pos rfl, cpu_cons, cpu_cons]
      by_cases e2 : b = a <;> simp [e2]
    · rw [if_neg e1, cpu_cons, cpu_cons, ih]
      by_cases e2 : b = a
      · have e3 : ¬ h = a := by rintro rfl; exact e1 e2
        simp [e2, e3]
      · simp [e2]

theorem cpu_assign (r : Resources) (h : String) (c : Nat) (a : String) : cpu (assign r h c) a = if h = a then c else cpu r a := by
  induction r with
  | nil => by_cases e : h = a <;> simp [assign, cpu, e]
  | cons p r ih =>
    obtain ⟨b, d⟩ := p
    simp only [assign]
    by_cases e1 : b = h
    · subst e1
      rw [if_pos rfl, cpu_cons, cpu_cons]
      by_cases e2 : b = a <;> simp [e2]
    · rw [if_neg e1, cpu_cons, cpu_cons, ih]
      by_cases e2 : b = a
      · have e3 : ¬ h = a := by rintro rfl; exact e1 e2
        simp [e2, e3]
      · simp [e2]

theorem cpu_filter (r : Resources) (l a : String) : cpu (r.filter (·.1 ≠ l)) a = if a = l then 0 else cpu r a := by
  induction r with
  | nil => simp [cpu]
  | cons p r ih =>
    obtain ⟨b, d⟩ := p
    rw [List.filter_cons]
    by_cases e1 : b = l
    · subst e1
      simp only [ne_eq, not_true_eq_false, decide_false, Bool.false_eq_true, if_false]
      rw [cpu_cons, ih]
      by_cases e2 : a = b
      · simp [e2]
      · have : ¬ b = a := fun h => e2 h.symm
        simp [e2, this]
    · simp only [ne_eq, e1, not_false_eq_true, decide_true, if_true]
      rw [cpu_cons, cpu_cons, ih]
      by_cases e2 : a = l
      · subst e2; simp [e1]
      · simp [e2]

/-- All CPUs. -/
def total (r : Resources) : Nat := (r.map (·.2)).sum

theorem keys_addThreads (r : Resources) (h : String) (t : Nat) :
    (addThreads r h t).map (·.1) = if h ∈ r.map (·.1) then r.map (·.1) else r.map (·.1) ++ [h] := by
  induction r with
  | nil => simp [addThreads]
  | cons p r ih =>
    obtain ⟨b, d⟩ := p
    simp only [addThreads]
    by_cases e : b = h
    · simp [e]
    · have e' : ¬ h = b := fun h => e h.symm
      rw [if_neg e, List.map_cons, ih, List.map_cons]
      simp only [List.mem_cons, e', false_or]
      split <;> simp

theorem total_addThreads (r : Resources) (h : String) (t : Nat) : total (addThreads r h t) = total r + t := by
  induction r with
  | nil => simp [addThreads, total]
  | cons p r ih =>
    obtain ⟨b, d⟩ := p
    simp only [addThreads]
    split
    · simp only [total, List.map_cons, List.sum_cons]; omega
    · simp only [total, List.map_cons, List.sum_cons] at ih ⊢; omega

theorem total_assign (r : Resources) (h : String) (c : Nat) : total (assign r h c) + cpu r h = total r + c := by
  induction r with
  | nil => simp [assign, total, cpu]
  | cons p r ih =>
    obtain ⟨b, d⟩ := p
    simp only [assign]
    rw [cpu_cons]
    by_cases e : b = h
    · simp only [e, if_true, total, List.map_cons, List.sum_cons]; omega
    · simp only [e, if_false, total, List.map_cons, List.sum_cons] at ih ⊢; omega

theorem cpu_absent {r : Resources} {l : String} (h : l ∉ r.map (·.1)) : cpu r l = 0 := by
  induction r with
  | nil => rfl
  | cons p r ih =>
    obtain ⟨b, d⟩ := p
    simp only [List.map_cons, List.mem_cons, not_or] at h
    rw [cpu_cons, if_neg (fun e => h.1 e.symm), ih h.2]

theorem total_filter {r : Resources} (l : String) (hn : (r.map (·.1)).Nodup) : total (r.filter (·.1 ≠ l)) + cpu r l = total r := by
  induction r with
  | nil => rfl
  | cons p r ih =>
    obtain ⟨b, d⟩ := p
    simp only [List.map_cons, List.nodup_cons] at hn
    have ih := ih hn.2
    rw [List.filter_cons, cpu_cons]
    by_cases e : b = l
    · subst e
      rw [cpu_absent hn.1] at ih
      simp only [ne_eq, not_true_eq_false, decide_false, Bool.false_eq_true, if_false, if_true, total, List.map_cons, List.sum_cons] at ih ⊢
      omega
    · simp only [ne_eq, e, not_false_eq_true, decide_true, if_true, if_false, total, List.map_cons, List.sum_cons] at ih ⊢
      omega

theorem fold_spec (ws : List (String × Nat)) : ∀ r : Resources, (r.map (·.1)).Nodup →
    let r' := ws.foldl (fun r w => addThreads r w.1 w.2) r
    (r'.map (·.1)).Nodup ∧ total r' = total r + (ws.map (·.2)).sum ∧
    (∀ a, cpu r' a = cpu r a + ((ws.filter (·.1 = a)).map (·.2)).sum) ∧ ∀ a, a ∈ r'.map (·.1) ↔ a ∈ r.map (·.1) ∨ a ∈ ws.map (·.1) := by
  induction ws with
  | nil => intro r h; exact ⟨h, rfl, fun _ => rfl, by simp⟩
  | cons w ws ih =>
    intro r h
    obtain ⟨k1, k2, k3, k4⟩ := ih (addThreads r w.1 w.2) (by
      rw [keys_addThreads]
      split
      · exact h
      · rename_i hm
        rw [List.nodup_append]
        refine ⟨h, by simp, ?_⟩
        intro a ha b hb e
        simp only [List.mem_singleton] at hb
        subst hb e
        exact hm ha)
    refine ⟨k1, ?_, ?_, ?_⟩
    · simp only [List.foldl_cons, k2, total_addThreads, List.map_cons, List.sum_cons]; omega
    · intro a
      simp only [List.foldl_cons, k3, cpu_addThreads]
      by_cases e : w.1 = a
      · simp [e]; omega
      · simp [e]
    · intro a
      simp only [List.foldl_cons, k4, List.map_cons, List.mem_cons]
      rw [keys_addThreads]
      split
      · rename_i hm
        constructor
        · rintro (h | h)
          · exact .inl h
          · exact .inr (.inr h)
        · rintro (h | rfl | h)
          · exact .inl h
          · exact .inl hm
          · exact .inr h
      · simp only [List.mem_append, List.mem_singleton]
        tauto

end Verif.Dask

namespace Verif.Props
open Verif.Dask

/-! ## C74 -/

/-- **C74** as stated: if at least `n ≥ 1` of the given references finish, `wait` returns exactly `n` finished ones and the rest. -/
def C74_full : Prop :=
  ∀ (completion : Nat → Option Nat) (now delay : Nat) (delays : Nat → Nat) (order : List Nat → List Nat) (futures : List Nat) (n : Nat),
    (∀ l, List.Perm (order l) l) → 1 ≤ n → n ≤ (futures.filter fun f => (completion f).isSome).length →
    ∃ t ready rest, wait completion now delay delays order futures n = some (t, ready, rest) ∧ ready.length = n ∧
      (∀ f ∈ ready, ∃ c, completion f = some c ∧ c ≤ t) ∧ List.Perm (ready ++ rest) futures

/-- **C74** does not hold: of a reference given twice one occurrence is lost. -/
theorem C74_lost_violated : ¬ C74_full := by
  intro h
  obtain ⟨t, ready, rest, h1, -, -, h4⟩ := h (fun _ => some 0) 0 0 (fun _ => 0) id [5, 5] 1 (fun _ => .refl _) (by decide) (by decide)
  have e : wait (fun _ => some 0) 0 0 (fun _ => 0) id [5, 5] 1 = some (0, [5], []) := by decide +kernel
  rw [e] at h1
  simp only [Option.some.injEq, Prod.mk.injEq] at h1
  obtain ⟨-, rfl, rfl⟩ := h1
  have := h4.length_eq
  simp at this

/-- **C74** does not hold: waiting for both occurrences of a reference given twice never returns, although it is finished. -/
theorem C74_endless_violated : ¬ C74_full := by
  intro h
  obtain ⟨t, ready, rest, h1, -⟩ := h (fun _ => some 0) 0 0 (fun _ => 0) id [5, 5] 2 (fun _ => .refl _) (by decide) (by decide)
  have e : wait (fun _ => some 0) 0 0 (fun _ => 0) id [5, 5] 2 = none := by decide +kernel
  rw [e] at h1
  cases h1

/-- **C74**, the rest: for different references `wait` returns as stated, whatever the completion times, the delays of the calls and the
iteration order of sets are. -/
theorem C74_partial (completion : Nat → Option Nat) (now delay : Nat) (delays : Nat → Nat) (order : List Nat → List Nat) (futures : List Nat)
    (n : Nat) (hd : futures.Nodup) (ho : ∀ l, List.Perm (order l) l) (h1 : 1 ≤ n)
    (hn : n ≤ (futures.filter fun f => (completion f).isSome).length) :
    ∃ t ready rest, wait completion now delay delays order futures n = some (t, ready, rest) ∧ ready.length = n ∧
      (∀ f ∈ ready, ∃ c, completion f = some c ∧ c ≤ t) ∧ List.Perm (ready ++ rest) futures := by
  have hex : ∃ f ∈ futures, (completion f).isSome = true := by
    obtain ⟨f, hf⟩ := List.exists_mem_of_length_pos (Nat.lt_of_lt_of_le h1 hn)
    rw [List.mem_filter] at hf
    exact ⟨f, hf⟩
  obtain ⟨t, d, r, k1, k2, k3, k4, k5, k6⟩ := waitFirst_spec (now := now) (delay := delay) hd hex
  obtain ⟨t', d', r', q1, q2, q3, q4, q5⟩ := collect_spec (n := n) (delays := delays) r.length t d r (Nat.le_refl _) k6 k4 (by
    rw [(k3.filter _).length_eq]; exact hn)
  simp only [wait, k1, q1]
  have hlen := (ho d').length_eq
  rw [moveBack_eq _ _ _ (by omega) (by omega)]
  refine ⟨t', _, _, rfl, by simp; omega, ?_, ?_⟩
  · intro f hf
    have hf := q4 f ((ho d').mem_iff.1 (List.mem_of_mem_take hf))
    unfold finishedBy at hf
    cases hc : completion f with
    | none => rw [hc] at hf; simp at hf
    | some c => rw [hc] at hf; exact ⟨c, rfl, by simpa using hf⟩
  · refine List.Perm.trans ?_ (q3.trans k3)
    refine List.Perm.trans ?_ ((ho d').append (ho r'))
    have e := List.take_append_drop n (order d')
    refine List.Perm.trans (l₂ := List.take n (order d') ++ (List.drop n (order d') ++ order r')) ?_ (by rw [← List.append_assoc, e])
    refine List.Perm.append_left _ ?_
    refine List.perm_append_comm.trans ?_
    exact (List.reverse_perm _).append_right _

/-- Three tasks; two of them finish at the same time, one of which is moved back. -/
example : wait (fun f => if f = 1 then none else some 7) 0 1 (fun _ => 0) id [0, 1, 2] 1 = some (8, [0], [1, 2]) := by decide +kernel

/-- Three rounds. -/
example : wait (fun f => some (10 * f)) 0 1 (fun _ => 2) List.reverse [3, 1, 2] 3 = some (32, [3, 2, 1], []) := by decide +kernel

/-- **C74**, exactly: a reference given several times counts once, and a call for `n ≥ 1` references returns if and only if at least `n`
different ones of the given references finish; the number of finished ones among the given ones does not matter. -/
theorem C74_exactly_partial (completion : Nat → Option Nat) (now delay : Nat) (delays : Nat → Nat) (order : List Nat → List Nat)
    (futures : List Nat) (n : Nat) (h1 : 1 ≤ n) :
    wait completion now delay delays order futures n = wait completion now delay delays order futures.dedup n ∧
    ((wait completion now delay delays order futures n).isSome = true ↔
      n ≤ (futures.dedup.filter fun f => (completion f).isSome).length) := by
  have e : wait completion now delay delays order futures n = wait completion now delay delays order futures.dedup n := by
    simp only [wait, waitFirst_dedup]
  refine ⟨e, ?_⟩
  rw [e]
  have hd := List.nodup_dedup futures
  generalize futures.dedup = fs at hd
  constructor
  · intro h
    unfold wait at h
    split at h
    · cases h
    · rename_i t done notDone hw
      obtain ⟨p1, p2, p3⟩ := waitFirst_perm hd hw
      split at h
      · cases h
      · rename_i t' d r hc
        obtain ⟨q1, q2, q3⟩ := collect_perm _ _ _ _ _ _ _ p3 p2 hc
        have hp := ((q2.trans p1).filter fun f => (completion f).isSome).length_eq
        rw [List.filter_append, List.length_append, List.filter_eq_self.2 q3] at hp
        omega
  · intro hn
    have hex : ∃ f ∈ fs, (completion f).isSome = true := by
      obtain ⟨f, hf⟩ := List.exists_mem_of_length_pos (Nat.lt_of_lt_of_le h1 hn)
      rw [List.mem_filter] at hf
      exact ⟨f, hf⟩
    obtain ⟨t, d, r, k1, k2, k3, k4, k5, k6⟩ := waitFirst_spec (now := now) (delay := delay) hd hex
    obtain ⟨t', d', r', q1, q2, q3, q4, q5⟩ := collect_spec (n := n) (delays := delays) r.length t d r (Nat.le_refl _) k6 k4 (by
      rw [(k3.filter _).length_eq]; exact hn)
    simp [wait, k1, q1]

/-- One of three references is given twice, and the third never finishes: a call for two returns, a call for three does not. -/
example : let c : Nat → Option Nat := fun f => if f = 2 then none else some f
    (wait c 0 1 (fun _ => 0) id [1, 1, 2, 0] 2).isSome = true ∧ wait c 0 1 (fun _ => 0) id [1, 1, 2, 0] 3 = none := by decide +kernel

/-! ## C75 -/

/-- **C75** as stated: the counts add up to all threads. -/
def C75_full : Prop := ∀ (workers : List (String × Nat)) (ip : String),
  ((clusterResources workers ip).map (·.2)).sum = (workers.map (·.2)).sum

/-- **C75** does not hold: the entry of the local host replaces that of workers which have registered with the address of the same
host. -/
theorem C75_violated : ¬ C75_full := by
  intro h
  have := h [("127.0.0.1", 2), ("10.0.0.1", 3)] "10.0.0.1"
  have e : ((clusterResources [("127.0.0.1", 2), ("10.0.0.1", 3)] "10.0.0.1").map (·.2)).sum = 2 := by decide +kernel
  rw [e] at this
  simp at this

/-- **C75**, the rest: if no worker uses `127.0.0.1`, or none is registered with the address of this host, then all threads are counted,
under the address of their worker, where `127.0.0.1` stands for this host. -/
theorem C75_partial (workers : List (String × Nat)) (ip : String)
    (h : (∀ w ∈ workers, w.1 ≠ "127.0.0.1") ∨ ∀ w ∈ workers, w.1 = ip → ip = "127.0.0.1") :
    ((clusterResources workers ip).map (·.2)).sum = (workers.map (·.2)).sum ∧
    ∀ a, (((clusterResources workers ip).find? (·.1 = a)).map (·.2)).getD 0 =
      ((workers.filter fun w => (if w.1 = "127.0.0.1" then ip else w.1) = a).map (·.2)).sum := by
  obtain ⟨k1, k2, k3, k4⟩ := fold_spec workers [] (by simp)
  have key : total (clusterResources workers ip) = (workers.map (·.2)).sum ∧
      ∀ a, cpu (clusterResources workers ip) a = ((workers.filter fun w => (if w.1 = "127.0.0.1" then ip else w.1) = a).map (·.2)).sum := by
    simp only [clusterResources]
    generalize workers.foldl (fun r w => addThreads r w.1 w.2) [] = r at k1 k2 k3 k4
    simp only [List.map_nil, List.not_mem_nil, false_or] at k4
    simp only [total, List.map_nil, List.sum_nil, Nat.zero_add] at k2
    simp only [cpu, List.find?_nil, Option.map_none, Option.getD_none, Nat.zero_add] at k3
    change ∀ a, cpu r a = _ at k3
    change total r = _ at k2
    cases hf : r.find? (·.1 = localhost) with
    | none =>
      have hno : ∀ w ∈ workers, w.1 ≠ "127.0.0.1" := by
        intro w hw e
        have := (k4 localhost).2 (List.mem_map.2 ⟨w, hw, e⟩)
        obtain ⟨q, hq, hq1⟩ := List.mem_map.1 this
        rw [List.find?_eq_none] at hf
        exact hf q hq (by simp [hq1])
      refine ⟨k2, fun a => ?_⟩
      simp only
      rw [k3]
      congr 2
      apply List.filter_congr
      intro w hw
      simp [hno w hw]
    | some p =>
      obtain ⟨b, c⟩ := p
      have hb : b = localhost := by simpa using List.find?_some hf
      subst hb
      have hc : cpu r localhost = c := by simp [cpu, hf]
      have hip : ∀ w ∈ workers, w.1 = ip → ip = "127.0.0.1" := by
        rcases h with h | h
        · exfalso
          have hm := List.mem_of_find?_eq_some hf
          obtain ⟨w, hw, e⟩ := List.mem_map.1 ((k4 localhost).1 (List.mem_map.2 ⟨_, hm, rfl⟩))
          exact h w hw e
        · exact h
      have hcip : cpu (r.filter (·.1 ≠ localhost)) ip = 0 := by
        rw [cpu_filter]
        split
        · rfl
        · rename_i hne
          rw [k3]
          have : workers.filter (·.1 = ip) = [] := by
            rw [List.filter_eq_nil_iff]
            intro w hw e
            exact hne (hip w hw (by simpa using e))
          rw [this]; rfl
      constructor
      · have h1 := total_assign (r.filter (·.1 ≠ localhost)) ip c
        have h2 := total_filter localhost k1
        rw [← k2]
        simp only
        omega
      · intro a
        simp only
        rw [cpu_assign, cpu_filter]
        by_cases e : ip = a
        · subst e
          rw [if_pos rfl, ← hc, k3]
          congr 2
          apply List.filter_congr
          intro w hw
          by_cases e1 : w.1 = "127.0.0.1"
          · simp [e1, localhost]
          · have e2 : ¬ w.1 = ip := by
              intro e2
              have := hip w hw e2
              exact e1 (e2.trans this)
            simp [e1, e2, localhost]
        · rw [if_neg e]
          split
          · rename_i ea
            subst ea
            symm
            have : workers.filter (fun w => decide ((if w.1 = "127.0.0.1" then ip else w.1) = localhost)) = [] := by
              rw [List.filter_eq_nil_iff]
              intro w hw e'
              by_cases e1 : w.1 = "127.0.0.1"
              · simp [e1] at e'; exact e e'
              · simp [e1] at e'; exact e1 e'
            rw [this]; rfl
          · rename_i ea
            rw [k3]
            congr 2
            apply List.filter_congr
            intro w hw
            by_cases e1 : w.1 = "127.0.0.1"
            · have : ¬ localhost = a := fun h => ea h.symm
              simp [e1, e]
              exact this
            · simp [e1]
  exact key

example : clusterResources [("10.0.0.2", 4), ("127.0.0.1", 1), ("127.0.0.1", 1), ("10.0.0.2", 2)] "10.0.0.1" = [("10.0.0.2", 6), ("10.0.0.1", 2)] := by
  decide +kernel

/-- **C75**, exactly: the threads that are not counted are those of the workers registered with the address of this host, if some worker
uses `127.0.0.1` and this host has another address; so the sum is right if and only if there are no such threads. -/
theorem C75_exactly_partial (workers : List (String × Nat)) (ip : String) :
    ((clusterResources workers ip).map (·.2)).sum +
      (if (∃ w ∈ workers, w.1 = "127.0.0.1") ∧ ip ≠ "127.0.0.1" then ((workers.filter (·.1 = ip)).map (·.2)).sum else 0) =
      (workers.map (·.2)).sum := by
  obtain ⟨k1, k2, k3, k4⟩ := fold_spec workers [] (by simp)
  change total (clusterResources workers ip) + _ = _
  simp only [clusterResources]
  generalize workers.foldl (fun r w => addThreads r w.1 w.2) [] = r at k1 k2 k3 k4
  simp only [List.map_nil, List.not_mem_nil, false_or] at k4
  simp only [total, List.map_nil, List.sum_nil, Nat.zero_add] at k2
  simp only [cpu, List.find?_nil, Option.map_none, Option.getD_none, Nat.zero_add] at k3
  change ∀ a, cpu r a = _ at k3
  change total r = _ at k2
  cases hf : r.find? (·.1 = localhost) with
  | none =>
    have hno : ¬ ∃ w ∈ workers, w.1 = "127.0.0.1" := by
      rintro ⟨w, hw, e⟩
      have := (k4 localhost).2 (List.mem_map.2 ⟨w, hw, e⟩)
      obtain ⟨q, hq, hq1⟩ := List.mem_map.1 this
      rw [List.find?_eq_none] at hf
      exact hf q hq (by simp [hq1])
    rw [if_neg fun h => hno h.1]
    exact k2
  | some p =>
    obtain ⟨b, c⟩ := p
    have hb : b = localhost := by simpa using List.find?_some hf
    subst hb
    have hc : cpu r localhost = c := by simp [cpu, hf]
    have hyes : ∃ w ∈ workers, w.1 = "127.0.0.1" := by
      have hm := List.mem_of_find?_eq_some hf
      obtain ⟨w, hw, e⟩ := List.mem_map.1 ((k4 localhost).1 (List.mem_map.2 ⟨_, hm, rfl⟩))
      exact ⟨w, hw, e⟩
    have h1 := total_assign (r.filter (·.1 ≠ localhost)) ip c
    have h2 := total_filter localhost k1
    have h3 := cpu_filter r localhost ip
    simp only
    rw [← k2]
    by_cases hip : ip = "127.0.0.1"
    · rw [if_neg fun h => h.2 hip]
      rw [if_pos (show ip = localhost from hip)] at h3
      omega
    · rw [if_pos ⟨hyes, hip⟩, ← k3]
      rw [if_neg (show ¬ ip = localhost from hip)] at h3
      omega

/-- Three of the six threads are lost. -/
example : ((clusterResources [("127.0.0.1", 2), ("10.0.0.1", 3), ("10.0.0.2", 1)] "10.0.0.1").map (·.2)).sum + 3 = 6 := by decide +kernel

/-! ## C84 -/

/-- **C84** as stated: the number of CPUs is the number of threads of all workers. -/
def C84_full : Prop := ∀ workers : List (String × Nat), numCpus workers = (workers.map (·.2)).sum

/-- **C84** does not hold: a worker with four threads counts as one CPU. -/
theorem C84_violated : ¬ C84_full := by
  intro h
  have := h [("10.0.0.1", 4)]
  simp [numCpus] at this

/-- **C84**, the rest: right if every worker has one thread, as when unidist starts the workers itself. -/
theorem C84_partial (workers : List (String × Nat)) (h : ∀ w ∈ workers, w.2 = 1) : numCpus workers = (workers.map (·.2)).sum := by
  induction workers with
  | nil => rfl
  | cons w ws ih =>
    have ih := ih fun w' hw' => h w' (List.mem_cons_of_mem _ hw')
    simp only [numCpus, List.length_cons, List.map_cons, List.sum_cons, h w (by simp)] at ih ⊢
    omega

example : numCpus [("10.0.0.1", 1), ("10.0.0.1", 1)] = 2 := rfl

/-- **C84**, exactly, for workers that have threads at all: the number is right if and only if every worker has one thread, and too small
otherwise. -/
theorem C84_exactly_partial (workers : List (String × Nat)) (h : ∀ w ∈ workers, 1 ≤ w.2) :
    numCpus workers ≤ (workers.map (·.2)).sum ∧ (numCpus workers = (workers.map (·.2)).sum ↔ ∀ w ∈ workers, w.2 = 1) := by
  induction workers with
  | nil => simp [numCpus]
  | cons w ws ih =>
    obtain ⟨h1, h2⟩ := ih fun w' hw' => h w' (List.mem_cons_of_mem _ hw')
    have h3 := h w (by simp)
    simp only [numCpus, List.length_cons, List.map_cons, List.sum_cons, List.forall_mem_cons] at h1 h2 ⊢
    refine ⟨by omega, ?_⟩
    rw [← h2]
    omega

/-- Two workers with three threads. -/
example : numCpus [("10.0.0.1", 1), ("10.0.0.1", 2)] = 2 ∧ ([("10.0.0.1", 1), ("10.0.0.1", 2)].map (·.2)).sum = 3 := by decide

end Verif.Props
