/-!
# Common vocabulary of the models
-/
namespace Verif

/-- Finite maps (`dict`, `WeakKeyDictionary`) are modelled as functions into `Option`; `upd` is
`d[k] = v` (for `some v`) or `del d[k]` (for `none`). Python language construct, used for instance in
/repo/unidist/core/backends/mpi/core/local_object_store.py:84. -/
def upd {α β : Type} [DecidableEq α] (f : α → β) (k : α) (v : β) : α → β :=
  fun x => if x = k then v else f x

@[simp] theorem upd_same {α β : Type} [DecidableEq α] (f : α → β) (k : α) (v : β) :
    upd f k v k = v := by simp [upd]

theorem upd_other {α β : Type} [DecidableEq α] (f : α → β) {k x : α} (v : β) (h : x ≠ k) :
    upd f k v x = f x := by simp [upd, h]

theorem upd_apply {α β : Type} [DecidableEq α] (f : α → β) (k x : α) (v : β) :
    upd f k v x = if x = k then v else f x := rfl

/-- `MpiDataID` (/repo/unidist/core/backends/mpi/core/common.py:266-300): identity is the pair of the
creating rank and the data number. Equality and hash of `DataID` go through the text
`rank_{owner_rank}_id_{data_number}` (mpi/core/common.py:297, backends/common/data_id.py), which is injective in the pair
(property C21). -/
structure DataId where
  rank : Nat
  num : Nat
deriving DecidableEq, Repr

end Verif
