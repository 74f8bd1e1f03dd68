/-!
# Floating point products

The products `0.6 * system_memory` (`/repo/unidist/core/backends/ray/utils.py` 110-112) and `size * 0.95`, `0.99 * A`, `0.01 * A`
(`/repo/unidist/core/backends/mpi/core/shared_object_store.py` 160, 208, 209) with the rounding of double precision.
-/
namespace Verif.Float

/-- Rounding to a floating point number with 53 significant bits, to nearest, ties to even. Numbers are multiples of a fixed
unit. Semantics of the products in ray/utils.py:110-112 and shared_object_store.py:160, 208, 209. -/
def round53 (p : Nat) : Nat :=
  let unit := 2 ^ (p.log2 + 1 - 53)
  if 2 * (p % unit) < unit ∨ (2 * (p % unit) = unit ∧ p / unit % 2 = 0) then p / unit * unit else (p / unit + 1) * unit

/-- `int(f * n)` where the literal `f` is `m` times 2⁻ᵉ and `n` is below 2⁵³, so that it is a floating point number itself: the product is
rounded, then cut off (shared_object_store.py:160, 208, 209). -/
def scaled (m e n : Nat) : Nat := round53 (m * n) / 2 ^ e

end Verif.Float
