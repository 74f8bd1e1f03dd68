import Verif.Model.SharedSystem

/-! Vocabulary of the properties of the whole shared object store. -/
namespace Verif.Spec
open Verif.SharedSystem Verif.SharedBuffer

/-- Some process of some host has registered itself as a user of the object and did not drop it. -/
def Held (s : Sys) (id : DataId) : Prop := ∃ n ∈ s.nodes, ∃ h ∈ n.holders, h.id = id

/-- The value consists of the bytes that were put under its id. -/
def Intact (s : Sys) (n : Node) (v : View) : Prop :=
  ∃ d, s.objs v.id = some d ∧ SharedBuffer.read n.mem v.first v.info = d

/-- At every cleanup, an object that some process has found in shared memory but not registered for yet is registered by
somebody (the process that told where the object is keeps it). -/
def GuardedGets : Sys → List Op → Prop
  | _, [] => True
  | s, op :: ops =>
    (∀ l, op = .cleanup l → ∀ n ∈ s.nodes, ∀ c ∈ n.checked, Held s c.id) ∧
      ∀ s', s.step op = some s' → GuardedGets s' ops

/-- Some host has a range of shared memory for the object. -/
def Stored (s : Sys) (id : DataId) : Prop := ∃ n ∈ s.nodes, n.host.mgr.resv id ≠ none

/-- Some process has reserved memory for the object and did not complete it yet. -/
def InTransfer (s : Sys) (id : DataId) : Prop := ∃ n ∈ s.nodes, ∃ q ∈ n.pend, q.id = id

end Verif.Spec
