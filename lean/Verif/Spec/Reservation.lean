import Verif.Model.ShmHistory

/-! Specification of the reservation protocol: a log of events is legal if a request is answered "first"
exactly when the object has no reservation, and otherwise repeats the reservation given before. -/
namespace Verif.Spec
open Verif.Shm

/-- Legality of an event log with respect to the reservations in force. -/
def LegalLog : (DataId → Option Resv) → List Event → Prop
  | _, [] => True
  | cur, .reserved id r first :: t =>
    (match cur id with
      | none => first = true
      | some r' => first = false ∧ r = r') ∧
      LegalLog (fun x => if x = id then some r else cur x) t
  | cur, .freed id :: t => LegalLog (fun x => if x = id then none else cur x) t

/-- Host `h` has a positive reference count for `id` in its metadata. -/
def HostRefers (h : Host) (id : DataId) : Prop :=
  ∃ r, h.mgr.resv id = some r ∧ h.words r.svc = id.rank ∧ h.words (r.svc + 1) = id.num ∧
    0 < h.words (r.svc + 3)

end Verif.Spec
