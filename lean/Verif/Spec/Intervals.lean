/-! Specification vocabulary for byte ranges; independent of the allocator model. -/
namespace Verif.Spec

/-- Half-open ranges `[p.1, p.2)` and `[q.1, q.2)` have no byte in common. -/
def DisjointRanges (p q : Nat × Nat) : Prop :=
  ∀ x, ¬ ((p.1 ≤ x ∧ x < p.2) ∧ (q.1 ≤ x ∧ x < q.2))

/-- The range is non-empty and lies inside a segment of `len` bytes. -/
def InSegment (len : Nat) (p : Nat × Nat) : Prop := p.1 < p.2 ∧ p.2 ≤ len

/-- The `n` bytes starting at `a` lie in the segment and belong to none of the given ranges. -/
def FreeGap (len : Nat) (live : List (Nat × Nat)) (a n : Nat) : Prop :=
  a + n ≤ len ∧ ∀ x, a ≤ x → x < a + n → ∀ p ∈ live, ¬ (p.1 ≤ x ∧ x < p.2)

end Verif.Spec
