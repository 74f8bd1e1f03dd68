import Verif.Model.Cluster

/-! Decidable equality of values and messages, used to evaluate examples. -/
namespace Verif.Worker

mutual
/-- Decidable equality of values. -/
def Val.decEq : (a b : Val) → Decidable (a = b)
  | .data m, .data n => if h : m = n then isTrue (by rw [h]) else isFalse (by simpa using h)
  | .exc m, .exc n => if h : m = n then isTrue (by rw [h]) else isFalse (by simpa using h)
  | .code m, .code n => if h : m = n then isTrue (by rw [h]) else isFalse (by simpa using h)
  | .ref m, .ref n => if h : m = n then isTrue (by rw [h]) else isFalse (by simpa using h)
  | .list vs, .list us =>
    match Val.decEqList vs us with
    | isTrue h => isTrue (by rw [h])
    | isFalse h => isFalse (by simpa using h)
  | .data _, .exc _ | .data _, .code _ | .data _, .ref _ | .data _, .list _
  | .exc _, .data _ | .exc _, .code _ | .exc _, .ref _ | .exc _, .list _
  | .code _, .data _ | .code _, .exc _ | .code _, .ref _ | .code _, .list _
  | .ref _, .data _ | .ref _, .exc _ | .ref _, .code _ | .ref _, .list _
  | .list _, .data _ | .list _, .exc _ | .list _, .code _ | .list _, .ref _ => isFalse (by simp)
/-- Decidable equality of lists of values. -/
def Val.decEqList : (a b : List Val) → Decidable (a = b)
  | [], [] => isTrue rfl
  | [], _ :: _ => isFalse (by simp)
  | _ :: _, [] => isFalse (by simp)
  | a :: s, b :: t =>
    match Val.decEq a b, Val.decEqList s t with
    | isTrue h, isTrue k => isTrue (by rw [h, k])
    | isFalse h, _ => isFalse (by simp [h])
    | _, isFalse k => isFalse (by simp [k])
end

instance : DecidableEq Val := Val.decEq

deriving instance DecidableEq for Ret
deriving instance DecidableEq for Request
deriving instance DecidableEq for Msg
deriving instance DecidableEq for Coroutine

end Verif.Worker

namespace Verif.Cluster
deriving instance DecidableEq for GetResult
deriving instance DecidableEq for Waiting
end Verif.Cluster
