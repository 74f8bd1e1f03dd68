import Verif.Model.Float

/-! Floating point products that are cut off to integers do not differ from exact ones for memory sizes. -/
namespace Verif.Float

/-- The unit in the last place of a product. -/
theorem unit_facts {p : Nat} (hp : p < 2 ^ 105) :
    ∃ u, u = 2 ^ (p.log2 + 1 - 53) ∧ 0 < u ∧ (u = 1 ∨ u * 2 ^ 52 ≤ p) ∧ p < u * 2 ^ 53 ∧ u ∣ 2 ^ 53 := by
  refine ⟨_, rfl, Nat.two_pow_pos _, ?_, ?_, ?_⟩
  · by_cases h : p.log2 + 1 ≤ 53
    · left; rw [show p.log2 + 1 - 53 = 0 by omega]
    · right
      have hne : p ≠ 0 := by rintro rfl; simp at h
      rw [← Nat.pow_add, show p.log2 + 1 - 53 + 52 = p.log2 by omega]
      exact Nat.log2_self_le hne
  · rw [← Nat.pow_add]
    exact Nat.lt_of_lt_of_le Nat.lt_log2_self (Nat.pow_le_pow_right (by decide) (by omega))
  · refine Nat.pow_dvd_pow 2 ?_
    by_cases hne : p = 0
    · subst hne; simp
    · have : 2 ^ p.log2 < 2 ^ 105 := Nat.lt_of_le_of_lt (Nat.log2_self_le hne) hp
      have := (Nat.pow_lt_pow_iff_right (a := 2) (by decide)).1 this
      omega

/-- What is needed of the rounding: with the unit `u` and a multiple `B` of it. -/
theorem round_facts {p j : Nat} (hp : p < 2 ^ 105) :
    ∃ u q r B, 0 < u ∧ (u = 1 ∨ u * 2 ^ 52 ≤ p) ∧ p < u * 2 ^ 53 ∧ B = 2 ^ 53 * j ∧ q + r = p ∧ r < u ∧
      (B ≤ q ∨ B = q + u ∨ q + 2 * u ≤ B) ∧ (round53 p = q ∧ 2 * r ≤ u ∨ round53 p = q + u ∧ u ≤ 2 * r) := by
  obtain ⟨u, hu, hpos, hlow, hhigh, hdvd⟩ := unit_facts hp
  obtain ⟨w, hw⟩ := hdvd
  refine ⟨u, u * (p / u), p % u, 2 ^ 53 * j, hpos, hlow, hhigh, rfl, Nat.div_add_mod p u, Nat.mod_lt p hpos, ?_, ?_⟩
  · rw [hw, Nat.mul_assoc]
    generalize w * j = k
    generalize p / u = q
    by_cases h1 : k ≤ q
    · exact .inl (Nat.mul_le_mul_left u h1)
    · by_cases h2 : k = q + 1
      · right; left; subst h2; rw [Nat.mul_add, Nat.mul_one]
      · right; right
        have := Nat.mul_le_mul_left u (show q + 2 ≤ k by omega)
        rw [Nat.mul_add, Nat.mul_comm u 2] at this
        exact this
  · simp only [round53, ← hu]
    rw [Nat.mul_comm (p / u) u, Nat.mul_comm (p / u + 1) u, Nat.mul_add, Nat.mul_one]
    split
    · left; refine ⟨rfl, by omega⟩
    · right; refine ⟨rfl, by omega⟩

/-- `0.95 * n` cut off is nineteen twentieths of `n` cut off. -/
theorem scaled_95 {n : Nat} (hn : n < 2 ^ 46) : scaled 8556839292003942 53 n = 19 * n / 20 := by
  have key : ∀ b, 2 ^ 53 * b ≤ round53 (8556839292003942 * n) ↔ 20 * b ≤ 19 * n := by
    intro b
    generalize hp : 8556839292003942 * n = p
    have hp5 : 20 * p + 8 * n = 19 * 2 ^ 53 * n := by rw [← hp]; omega
    obtain ⟨u, q, r, B, hpos, hlow, hhigh, hB, hqr, hr, hc, hd⟩ := round_facts (p := p) (j := b) (by omega)
    rw [← hB]
    constructor
    · intro h
      apply Classical.byContradiction
      intro hlt
      rcases hlow with rfl | hlow <;> rcases hd with hd | hd <;> omega
    · intro h
      rcases hlow with rfl | hlow <;> rcases hd with hd | hd <;> omega
  unfold scaled
  apply Nat.le_antisymm
  · rw [Nat.le_div_iff_mul_le (by decide)]
    have := (key (round53 (8556839292003942 * n) / 2 ^ 53)).1 (Nat.mul_div_le _ _)
    omega
  · rw [Nat.le_div_iff_mul_le (by decide), Nat.mul_comm]
    exact (key _).2 (by omega)

/-- `0.99 * n` cut off is exact. -/
theorem scaled_99 {n : Nat} (hn : n < 2 ^ 46) : scaled 8917127262193582 53 n = 99 * n / 100 := by
  have key : ∀ b, 2 ^ 53 * b ≤ round53 (8917127262193582 * n) ↔ 100 * b ≤ 99 * n := by
    intro b
    generalize hp : 8917127262193582 * n = p
    have hp5 : 100 * p + 8 * n = 99 * 2 ^ 53 * n := by rw [← hp]; omega
    obtain ⟨u, q, r, B, hpos, hlow, hhigh, hB, hqr, hr, hc, hd⟩ := round_facts (p := p) (j := b) (by omega)
    rw [← hB]
    constructor
    · intro h
      apply Classical.byContradiction
      intro hlt
      rcases hlow with rfl | hlow <;> rcases hd with hd | hd <;> omega
    · intro h
      rcases hlow with rfl | hlow <;> rcases hd with hd | hd <;> omega
  unfold scaled
  apply Nat.le_antisymm
  · rw [Nat.le_div_iff_mul_le (by decide)]
    have := (key (round53 (8917127262193582 * n) / 2 ^ 53)).1 (Nat.mul_div_le _ _)
    omega
  · rw [Nat.le_div_iff_mul_le (by decide), Nat.mul_comm]
    exact (key _).2 (by omega)

/-- `0.01 * n` cut off is exact. -/
theorem scaled_01 {n : Nat} (hn : n < 2 ^ 46) : scaled 5764607523034235 59 n = n / 100 := by
  have key : ∀ b, 2 ^ 59 * b ≤ round53 (5764607523034235 * n) ↔ 100 * b ≤ n := by
    intro b
    generalize hp : 5764607523034235 * n = p
    have hp5 : 100 * p = 2 ^ 59 * n + 12 * n := by rw [← hp]; omega
    obtain ⟨u, q, r, B, hpos, hlow, hhigh, hB, hqr, hr, hc, hd⟩ := round_facts (p := p) (j := 64 * b) (by omega)
    rw [show 2 ^ 59 * b = 2 ^ 53 * (64 * b) by omega, ← hB]
    constructor
    · intro h
      apply Classical.byContradiction
      intro hlt
      rcases hlow with rfl | hlow <;> rcases hd with hd | hd <;> omega
    · intro h
      rcases hlow with rfl | hlow <;> rcases hd with hd | hd <;> omega
  unfold scaled
  apply Nat.le_antisymm
  · rw [Nat.le_div_iff_mul_le (by decide)]
    have := (key (round53 (5764607523034235 * n) / 2 ^ 59)).1 (Nat.mul_div_le _ _)
    omega
  · rw [Nat.le_div_iff_mul_le (by decide), Nat.mul_comm]
    exact (key _).2 (by omega)

end Verif.Float
