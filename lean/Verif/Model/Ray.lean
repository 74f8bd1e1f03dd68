import Verif.Model.Float

/-!
# Ray backend

Models `/repo/unidist/core/backends/ray/utils.py` and the resource functions of `/repo/unidist/core/backends/ray/backend.py`.
-/
namespace Verif.Ray

open Verif.Float (round53)

/-- `0.6` (utils.py:25) is this many times 2⁻⁵³. -/
def ratio : Nat := 5404319552844595

/-- `int(0.6 * system_memory // 1e9 * 1e9)` (utils.py:109-115) for a system memory below 2⁵² bytes: the integer is a floating point
number, the product is rounded, and the quotient and the last product are exact because they are integers below 2⁵³. -/
def wholeGigabytes (systemMemory : Nat) : Nat := round53 (ratio * systemMemory) / (2 ^ 53 * 10 ^ 9) * 10 ^ 9

/-- Platforms as `sys.platform` distinguishes them (utils.py:94, 128). -/
inductive Platform
  | linux
  | darwin
  | other
deriving DecidableEq, Repr

/-- What the function sees: the setting, memory of the machine, free space of `/dev/shm`, platform, and whether Ray is at least
1.3.0 (ray/utils.py:90-131). -/
structure Host where
  configured : Option Nat
  virtualMemory : Nat
  shmBytes : Nat
  platform : Platform
  ray130 : Bool

/-- `_MAC_OBJECT_STORE_LIMIT_BYTES` (utils.py:29). -/
def macLimit : Nat := 2 * 2 ^ 30

/-- `_get_object_store_memory` (utils.py:75-132). The warning of lines 99-105 is not modelled. -/
def objectStoreMemory (h : Host) : Option Nat :=
  match h.configured with
  | some m => some m
  | none =>
    let systemMemory := if h.platform = .linux then h.shmBytes else h.virtualMemory
    let m := wholeGigabytes systemMemory
    if m = 0 then none
    else if h.platform = .darwin ∧ h.ray130 = true then some (min m macLimit) else some m

/-- A node as reported by `ray.nodes()` (backend.py:151-156): address and CPU resource, which Ray leaves out if there is none. -/
structure Node where
  address : String
  cpu : Option Nat
deriving DecidableEq, Repr

/-- Assignment to a dictionary in insertion order (backend.py:151-156). -/
def assign : List (String × Nat) → String → Nat → List (String × Nat)
  | [], a, c => [(a, c)]
  | (b, d) :: rest, a, c => if b = a then (b, c) :: rest else (b, d) :: assign rest a c

/-- `cluster_resources` (backend.py:140-158). -/
def clusterResources (nodes : List Node) : List (String × Nat) :=
  nodes.foldl (fun r n => assign r n.address (n.cpu.getD 1)) []

/-- `num_cpus` (backend.py:129-138): the sum over the cluster, `KeyError` (`none`) if no node has the resource. -/
def numCpus (nodes : List Node) : Option Nat :=
  let cpus := nodes.filterMap (·.cpu)
  if cpus = [] then none else some cpus.sum

/-- The settings of `initialize_ray` (utils.py:41-52). -/
structure Settings where
  initialized : Bool
  cluster : Bool
  address : Option String
  passwordIsDefault : Bool
  password : String
  rayPassword : String
  cpus : Nat
  gpus : Nat

/-- The call of `ray.init` (utils.py:53-72). -/
inductive InitCall
  | connect (address password : String)
  | start (cpus gpus : Nat) (memory : Option Nat) (password : String)
deriving DecidableEq, Repr

/-- `initialize_ray` (utils.py:32-72). An empty address counts as missing (57). -/
def initializeRay (s : Settings) (h : Host) : Option InitCall :=
  if !s.initialized || s.cluster then
    let password := if s.passwordIsDefault then (if s.cluster then s.rayPassword else s.password) else s.password
    if s.cluster then some (.connect (match s.address with | some a => if a = "" then "auto" else a | none => "auto") password)
    else some (.start s.cpus s.gpus (objectStoreMemory h) password)
  else none

end Verif.Ray
