import Verif.Model.Memcopy

/-! Helper lemmas for the parallel memory copy. -/
namespace Verif.Memcopy

theorem runCopies_exact {n : Int} {s : Buf} (cs : List Copy) : ∀ (d : Buf),
    (∀ c ∈ cs, c.dst = c.src ∧ 0 ≤ c.len ∧ 0 ≤ c.dst ∧ c.dst + c.len ≤ n) →
    ∃ d', runCopies n s cs d = some d' ∧
      ∀ j, ((∃ c ∈ cs, c.dst ≤ j ∧ j < c.dst + c.len) → d' j = s j) ∧
        ((∀ c ∈ cs, ¬ (c.dst ≤ j ∧ j < c.dst + c.len)) → d' j = d j) := by
  induction cs with
  | nil => intro d _; exact ⟨d, rfl, by simp⟩
  | cons c t ih =>
    intro d h
    obtain ⟨h1, h2, h3, h4⟩ := h c (by simp)
    have hb : c.inBounds n = true := by simp [Copy.inBounds]; omega
    obtain ⟨d', r1, r2⟩ := ih (fun j => if c.dst ≤ j ∧ j < c.dst + c.len then s (c.src + (j - c.dst)) else d j)
      (fun x hx => h x (by simp [hx]))
    refine ⟨d', by simp [runCopies, Copy.run, hb, r1], ?_⟩
    intro j
    refine ⟨?_, ?_⟩
    · rintro ⟨x, hx, hj⟩
      by_cases ht : ∃ y ∈ t, y.dst ≤ j ∧ j < y.dst + y.len
      · exact (r2 j).1 ht
      · have hno : ∀ y ∈ t, ¬ (y.dst ≤ j ∧ j < y.dst + y.len) := fun y hy hh => ht ⟨y, hy, hh⟩
        rw [(r2 j).2 hno]
        rcases List.mem_cons.1 hx with rfl | hx
        · simp only [hj, and_self, if_true]
          congr 1
          omega
        · exact absurd hj (hno x hx)
    · intro hno
      rw [(r2 j).2 (fun y hy => hno y (by simp [hy]))]
      rw [if_neg (hno c (by simp))]

/-- Values of the computed quantities when an aligned address lies in the buffer. -/
theorem memcopy_values {addr n : Int} {t : Nat} (ht : 1 ≤ t) (ha : 0 ≤ addr) (hn : addr + n < 2 ^ 63)
    (hal : left addr ≤ right0 addr n) :
    ∃ q : Int, 0 ≤ q ∧ chunkSize addr n t = 64 * q ∧ 0 ≤ prefixLen addr ∧
      right addr n t = left addr + t * (64 * q) ∧ 0 ≤ suffixLen addr n t ∧
      prefixLen addr + t * (64 * q) + suffixLen addr n t = n := by
  have hl : left addr = (addr + 63) / 64 * 64 := by simp [left, alignDown, block]; omega
  have hr : right0 addr n = (addr + n) / 64 * 64 := by simp [right0, alignDown, block]
  have hk : numBlocks addr n = (addr + n) / 64 - (addr + 63) / 64 := by
    unfold numBlocks toUnsigned block
    rw [hl, hr] at hal
    rw [hl, hr]
    have : ((addr + n) / 64 * 64 - (addr + 63) / 64 * 64) % 2 ^ 64 = (addr + n) / 64 * 64 - (addr + 63) / 64 * 64 := by
      apply Int.emod_eq_of_lt
      · omega
      · omega
    rw [this]
    omega
  generalize hK : (addr + n) / 64 - (addr + 63) / 64 = k at hk
  have hk0 : 0 ≤ k := by omega
  have htp : (0 : Int) < t := by omega
  have hdm := Int.mul_ediv_add_emod k t
  have hm0 := Int.emod_nonneg k (by omega : (t : Int) ≠ 0)
  have hq0 : 0 ≤ k / t := Int.ediv_nonneg hk0 (by omega)
  have hright : right addr n t = left addr + t * (64 * (k / t)) := by
    unfold right block
    rw [hk, hr, hl]
    have e : (t : Int) * (64 * (k / t)) = 64 * (t * (k / t)) := by
      rw [← Int.mul_assoc, Int.mul_comm (t : Int) 64, Int.mul_assoc]
    rw [e]
    omega
  have hpos : 0 ≤ (t : Int) * (64 * (k / t)) := Int.mul_nonneg (by omega) (by omega)
  have hle : (t : Int) * (64 * (k / t)) ≤ 64 * k := by
    have e : (t : Int) * (64 * (k / t)) = 64 * (t * (k / t)) := by
      rw [← Int.mul_assoc, Int.mul_comm (t : Int) 64, Int.mul_assoc]
    rw [e]; omega
  refine ⟨k / t, hq0, ?_, ?_, hright, ?_, ?_⟩
  · unfold chunkSize
    rw [hright]
    have : left addr + t * (64 * (k / t)) - left addr = t * (64 * (k / t)) := by omega
    rw [this, Int.mul_tdiv_cancel_left _ (by omega)]
  · unfold prefixLen; omega
  · unfold suffixLen
    rw [hright]
    omega
  · unfold suffixLen prefixLen
    rw [hright]
    omega

end Verif.Memcopy
