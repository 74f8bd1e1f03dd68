import Verif.Model.FreeMemory

/-! Helper lemmas about the free list. -/
namespace Verif.FreeMemory

/-- Canonical free list: non-empty ranges, sorted, with a gap of at least one occupied byte between
neighbours (so it is fully coalesced). -/
def Canon (r : Ranges) : Prop :=
  (∀ p ∈ r, p.1 < p.2) ∧ r.Pairwise (fun p q => p.2 < q.1)

/-- Byte `x` is in one of the ranges. -/
def Covers (r : Ranges) (x : Nat) : Prop := ∃ p ∈ r, p.1 ≤ x ∧ x < p.2

theorem canon_nil : Canon [] := by simp [Canon]

theorem canon_cons {p : Nat × Nat} {r : Ranges} :
    Canon (p :: r) ↔ p.1 < p.2 ∧ (∀ q ∈ r, p.2 < q.1) ∧ Canon r := by
  simp only [Canon, List.mem_cons, forall_eq_or_imp, List.pairwise_cons]
  grind

theorem canon_append {a b : Ranges} :
    Canon (a ++ b) ↔ Canon a ∧ Canon b ∧ ∀ p ∈ a, ∀ q ∈ b, p.2 < q.1 := by
  simp only [Canon, List.mem_append, List.pairwise_append]
  grind

theorem covers_nil {x : Nat} : ¬ Covers [] x := by simp [Covers]

theorem covers_cons {p : Nat × Nat} {r : Ranges} {x : Nat} :
    Covers (p :: r) x ↔ (p.1 ≤ x ∧ x < p.2) ∨ Covers r x := by
  simp [Covers]

theorem covers_append {a b : Ranges} {x : Nat} :
    Covers (a ++ b) x ↔ Covers a x ∨ Covers b x := by
  simp only [Covers, List.mem_append]
  grind

theorem covers_lo {r : Ranges} {p : Nat × Nat} (hc : Canon r) (hp : p ∈ r) : Covers r p.1 :=
  ⟨p, hp, Nat.le_refl _, hc.1 p hp⟩

/-- What `occupy` returns on success. -/
theorem occupy_some {r r' : Ranges} {n a b : Nat} (hn : 1 ≤ n) (hc : Canon r)
    (h : occupy r n = (some (a, b), r')) :
    b = a + n ∧ (∀ x, a ≤ x → x < b → Covers r x) ∧
      (∀ x, Covers r' x ↔ Covers r x ∧ ¬ (a ≤ x ∧ x < b)) ∧ Canon r' ∧
      (∀ q ∈ r', ∃ p ∈ r, p.1 ≤ q.1 ∧ q.2 = p.2) := by
  induction r generalizing r' with
  | nil => simp [occupy] at h
  | cons p tl ih =>
    obtain ⟨lo, hi⟩ := p
    rw [canon_cons] at hc
    obtain ⟨h1, h2, h3⟩ := hc
    simp only [occupy] at h
    split at h
    · split at h
      · simp only [Prod.mk.injEq, Option.some.injEq] at h
        obtain ⟨⟨rfl, rfl⟩, rfl⟩ := h
        refine ⟨rfl, ?_, ?_, h3, ?_⟩
        · intro x hx hx'; rw [covers_cons]; left; grind
        · intro x
          rw [covers_cons]
          constructor
          · intro hx
            refine ⟨Or.inr hx, ?_⟩
            obtain ⟨q, hq, hq1, hq2⟩ := hx
            have := h2 q hq
            grind
          · grind
        · intro q hq; exact ⟨q, by simp [hq], by simp⟩
      · simp only [Prod.mk.injEq, Option.some.injEq] at h
        obtain ⟨⟨rfl, rfl⟩, rfl⟩ := h
        refine ⟨rfl, ?_, ?_, ?_, ?_⟩
        · intro x hx hx'; rw [covers_cons]; left; grind
        · intro x
          rw [covers_cons, covers_cons]
          constructor
          · rintro (hx | hx)
            · grind
            · refine ⟨Or.inr hx, ?_⟩
              obtain ⟨q, hq, hq1, hq2⟩ := hx
              have := h2 q hq
              grind
          · grind
        · rw [canon_cons]; grind
        · intro q hq
          rcases List.mem_cons.1 hq with rfl | hq
          · exact ⟨(lo, hi), by simp, by simp⟩
          · exact ⟨q, by simp [hq], by simp⟩
    · generalize ho : occupy tl n = o at h
      obtain ⟨res, tl'⟩ := o
      simp only [Prod.mk.injEq] at h
      obtain ⟨rfl, rfl⟩ := h
      obtain ⟨i1, i2, i3, i4, i5⟩ := ih h3 ho
      refine ⟨i1, ?_, ?_, ?_, ?_⟩
      · intro x hx hx'; rw [covers_cons]; right; exact i2 x hx hx'
      · intro x
        rw [covers_cons, covers_cons, i3]
        constructor
        · rintro (hx | hx)
          · refine ⟨Or.inl hx, ?_⟩
            intro hab
            obtain ⟨q, hq, hq1, hq2⟩ := i2 x hab.1 hab.2
            have := h2 q hq
            grind
          · grind
        · grind
      · rw [canon_cons]
        refine ⟨h1, ?_, i4⟩
        intro q hq
        obtain ⟨p, hp, hp1, hp2⟩ := i5 q hq
        have := h2 p hp
        grind
      · intro q hq
        rcases List.mem_cons.1 hq with rfl | hq
        · exact ⟨(lo, hi), by simp, by simp⟩
        · obtain ⟨p, hp, hh⟩ := i5 q hq
          exact ⟨p, by simp [hp], hh⟩

/-- What `occupy` returns on failure: nothing changes and no range is long enough. -/
theorem occupy_none {r r' : Ranges} {n : Nat} (h : occupy r n = (none, r')) :
    r' = r ∧ ∀ p ∈ r, p.2 < p.1 + n := by
  induction r generalizing r' with
  | nil => simp [occupy] at h; simp [h]
  | cons p tl ih =>
    obtain ⟨lo, hi⟩ := p
    simp only [occupy] at h
    split at h
    · split at h <;> simp at h
    · generalize ho : occupy tl n = o at h
      obtain ⟨res, tl'⟩ := o
      simp only [Prod.mk.injEq] at h
      obtain ⟨rfl, rfl⟩ := h
      obtain ⟨rfl, i2⟩ := ih ho
      refine ⟨rfl, ?_⟩
      intro q hq
      rcases List.mem_cons.1 hq with rfl | hq
      · simp; omega
      · exact i2 q hq

/-- In a canonical list a run of covered bytes lies inside one range. -/
theorem covers_run {r : Ranges} (hc : Canon r) {a n : Nat} (hn : 1 ≤ n)
    (h : ∀ x, a ≤ x → x < a + n → Covers r x) : ∃ p ∈ r, p.1 ≤ a ∧ a + n ≤ p.2 := by
  obtain ⟨p, hp, hp1, hp2⟩ := h a (Nat.le_refl _) (by omega)
  refine ⟨p, hp, hp1, ?_⟩
  apply Classical.byContradiction
  intro hlt
  -- the byte `p.2` is covered by another range, which starts strictly after `p.2` or ends before
  obtain ⟨q, hq, hq1, hq2⟩ := h p.2 (by omega) (by omega)
  have hpw := hc.2
  have key : ∀ (l : Ranges), l.Pairwise (fun p q => p.2 < q.1) → p ∈ l → q ∈ l →
      p = q ∨ p.2 < q.1 ∨ q.2 < p.1 := by
    intro l
    induction l with
    | nil => simp
    | cons c t ih =>
      intro hl h1 h2
      rw [List.pairwise_cons] at hl
      rcases List.mem_cons.1 h1 with e1 | h1
      · rcases List.mem_cons.1 h2 with e2 | h2
        · exact Or.inl (e1.trans e2.symm)
        · exact Or.inr (Or.inl (e1 ▸ hl.1 q h2))
      · rcases List.mem_cons.1 h2 with e2 | h2
        · exact Or.inr (Or.inr (e2 ▸ hl.1 p h1))
        · exact ih hl.2 h1 h2
  rcases key r hpw hp hq with rfl | h' | h' <;> omega

/-- The `release` loop: all ranges already passed end strictly before `first`. -/
theorem releaseLoop_spec {all : Ranges} {f l : Nat} (hfl : f < l) (hc : Canon all)
    (hd : ∀ x, f ≤ x → x < l → ¬ Covers all x)
    (hlast : ∀ p, all.getLast? = some p → f ≤ p.2) (rest : Ranges) :
    ∀ pre, all = pre ++ rest → (∀ p ∈ pre, p.2 < f) →
      all ≠ [] →
      Canon (releaseLoop all f l pre rest) ∧
        ∀ x, Covers (releaseLoop all f l pre rest) x ↔ Covers all x ∨ (f ≤ x ∧ x < l) := by
  induction rest with
  | nil =>
    intro pre hall hpre hne
    exfalso
    simp only [List.append_nil] at hall
    subst hall
    obtain ⟨p, hp⟩ : ∃ p, all.getLast? = some p := by
      cases h : all.getLast? with
      | none => simp at h; exact absurd h hne
      | some p => exact ⟨p, rfl⟩
    have h1 := hlast p hp
    have h2 := hpre p (List.mem_of_getLast? hp)
    omega
  | cons q tl ih =>
    intro pre hall hpre hne
    obtain ⟨lo, hi⟩ := q
    have hc' := hc
    rw [hall, canon_append, canon_cons] at hc'
    obtain ⟨c1, ⟨c2, c3, c4⟩, c5⟩ := hc'
    -- position of (lo, hi) relative to [f, l)
    have hpos : hi ≤ f ∨ l ≤ lo := by
      apply Classical.byContradiction
      intro hcon
      have hx : Covers all (max f lo) := by
        rw [hall, covers_append, covers_cons]
        right; left
        constructor
        · exact Nat.le_max_right _ _
        · simp only at c2 ⊢; omega
      exact hd (max f lo) (Nat.le_max_left _ _) (by simp only at c2; omega) hx
    have htl : ∀ p ∈ tl, p.1 < p.2 := c4.1
    have hpred : ∀ p ∈ pre, p.1 < p.2 := c1.1
    simp only at c2 c3
    have covAll : ∀ x, Covers all x ↔ Covers pre x ∨ (lo ≤ x ∧ x < hi) ∨ Covers tl x := by
      intro x; rw [hall, covers_append, covers_cons]
    simp only [releaseLoop]
    split
    · rename_i hlo
      have hno : prevHi all pre ≠ some f := by
        intro hprev
        unfold prevHi at hprev
        split at hprev
        · rename_i p hp
          have := hpre p (List.mem_of_getLast? hp)
          simp at hprev
          omega
        · rename_i hnone
          simp only [List.getLast?_eq_none_iff] at hnone
          subst hnone
          simp only [List.nil_append] at hall
          rw [hall] at hprev
          simp only [Option.map_eq_some_iff] at hprev
          obtain ⟨p, hp, hp2⟩ := hprev
          have hm := List.mem_of_getLast? hp
          rcases List.mem_cons.1 hm with rfl | hm
          · simp only at hp2; omega
          · have h1 := c3 p hm
            have h2 := htl p hm
            omega
      rw [if_neg hno]
      subst hlo
      refine ⟨?_, ?_⟩
      · rw [canon_append, canon_cons]
        refine ⟨c1, ⟨by simp only; omega, c3, c4⟩, ?_⟩
        intro p hp q hq
        rcases List.mem_cons.1 hq with rfl | hq
        · exact hpre p hp
        · exact c5 p hp q (by simp [hq])
      · intro x
        rw [covAll, covers_append, covers_cons]
        simp only
        constructor
        · rintro (h | h | h)
          · exact Or.inl (Or.inl h)
          · by_cases hx : x < lo
            · exact Or.inr ⟨h.1, hx⟩
            · exact Or.inl (Or.inr (Or.inl ⟨by omega, h.2⟩))
          · exact Or.inl (Or.inr (Or.inr h))
        · rintro ((h | h | h) | h)
          · exact Or.inl h
          · exact Or.inr (Or.inl ⟨by omega, h.2⟩)
          · exact Or.inr (Or.inr h)
          · exact Or.inr (Or.inl ⟨h.1, by omega⟩)
    · rename_i hlo
      split
      · rename_i hhi
        subst hhi
        cases tl with
        | nil =>
          simp only
          refine ⟨?_, ?_⟩
          · rw [canon_append, canon_cons]
            refine ⟨c1, ⟨by simp only; omega, by simp, canon_nil⟩, ?_⟩
            intro p hp q hq
            simp only [List.mem_singleton] at hq
            subst hq
            exact c5 p hp (lo, hi) (by simp)
          · intro x
            rw [covAll, covers_append, covers_cons]
            simp only [covers_nil, or_false]
            grind
        | cons q2 tl2 =>
          obtain ⟨lo2, hi2⟩ := q2
          have d1 := c3 (lo2, hi2) (by simp)
          rw [canon_cons] at c4
          obtain ⟨e1, e2, e3⟩ := c4
          simp only at d1 e1 e2
          have hpos2 : l ≤ lo2 := by
            apply Classical.byContradiction
            intro hcon
            have hx : Covers all (max hi lo2) := by
              rw [covAll, covers_cons]
              right; right; left
              constructor
              · exact Nat.le_max_right _ _
              · simp only; omega
            exact hd _ (Nat.le_max_left _ _) (by omega) hx
          simp only
          split
          · rename_i hl2
            subst hl2
            refine ⟨?_, ?_⟩
            · rw [canon_append, canon_cons]
              refine ⟨c1, ⟨by simp only; omega, e2, e3⟩, ?_⟩
              intro p hp q hq
              rcases List.mem_cons.1 hq with rfl | hq
              · exact c5 p hp (lo, hi) (by simp)
              · exact c5 p hp q (by simp [hq])
            · intro x
              rw [covAll, covers_append, covers_cons, covers_cons]
              simp only
              grind
          · rename_i hl2
            refine ⟨?_, ?_⟩
            · rw [canon_append, canon_cons, canon_cons]
              refine ⟨c1, ⟨by simp only; omega, ?_, e1, e2, e3⟩, ?_⟩
              · intro q hq
                rcases List.mem_cons.1 hq with rfl | hq
                · simp only; omega
                · have := e2 q hq; simp only; omega
              · intro p hp q hq
                rcases List.mem_cons.1 hq with rfl | hq
                · exact c5 p hp (lo, hi) (by simp)
                · exact c5 p hp q (by simp [List.mem_cons.1 hq])
            · intro x
              rw [covAll, covers_append, covers_cons, covers_cons]
              simp only
              grind
      · rename_i hhi
        split
        · rename_i hgt
          refine ⟨?_, ?_⟩
          · rw [canon_append, canon_cons, canon_cons]
            refine ⟨c1, ⟨hfl, ?_, c2, c3, c4⟩, ?_⟩
            · intro q hq
              rcases List.mem_cons.1 hq with rfl | hq
              · exact hgt
              · have := c3 q hq; simp only; omega
            · intro p hp q hq
              rcases List.mem_cons.1 hq with rfl | hq
              · exact hpre p hp
              · exact c5 p hp q hq
          · intro x
            rw [covAll, covers_append, covers_cons, covers_cons]
            simp only
            grind
        · rename_i hgt
          apply ih (pre ++ [(lo, hi)])
          · simp [hall]
          · intro p hp
            rcases List.mem_append.1 hp with hp | hp
            · exact hpre p hp
            · simp only [List.mem_singleton] at hp
              subst hp
              simp only
              omega
          · exact hne

/-- `release` adds exactly the released bytes and keeps the list canonical. -/
theorem release_spec {r : Ranges} {f l : Nat} (hfl : f < l) (hc : Canon r)
    (hd : ∀ x, f ≤ x → x < l → ¬ Covers r x) :
    Canon (release r f l) ∧ ∀ x, Covers (release r f l) x ↔ Covers r x ∨ (f ≤ x ∧ x < l) := by
  unfold release
  split
  · rename_i h
    simp only [List.getLast?_eq_none_iff] at h
    subst h
    refine ⟨?_, ?_⟩
    · rw [List.nil_append, canon_cons]; exact ⟨hfl, by simp, canon_nil⟩
    · intro x; rw [List.nil_append, covers_cons]; simp [covers_nil]
  · rename_i p hp
    have hr : ∃ r0, r = r0 ++ [p] := by
      have := List.getLast?_eq_some_iff.1 hp
      exact this
    split
    · rename_i hlt
      refine ⟨?_, ?_⟩
      · rw [canon_append, canon_cons]
        refine ⟨hc, ⟨hfl, by simp, canon_nil⟩, ?_⟩
        intro a ha b hb
        simp only [List.mem_singleton] at hb
        subst hb
        obtain ⟨r0, rfl⟩ := hr
        rw [canon_append] at hc
        rcases List.mem_append.1 ha with ha | ha
        · have h1 := hc.2.2 a ha p (by simp)
          have h2 := hc.2.1.1 p (by simp)
          simp only; omega
        · simp only [List.mem_singleton] at ha; subst ha; exact hlt
      · intro x; rw [covers_append, covers_cons]; simp [covers_nil]
    · rename_i hlt
      apply releaseLoop_spec hfl hc hd ?_ r [] (by simp) (by simp)
      · intro h; subst h; simp at hp
      · intro q hq; rw [hp] at hq; simp only [Option.some.injEq] at hq; subst hq; omega

end Verif.FreeMemory
