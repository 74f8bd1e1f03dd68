/-!
# Roles of the MPI processes

Models `MPIState` in `/repo/unidist/core/backends/mpi/core/communication.py` (115-261), the number of spawned
processes and slots in `controller/api.py` (208-235) and `cluster_resources` (343-368).
-/
namespace Verif.Topology

/-- A Python `dict` in insertion order. Models the dictionaries of communication.py:131-138. -/
abbrev Dict (α β : Type) := List (α × β)

/-- `d[k] = v` (communication.py:137-138): an existing key keeps its position. -/
def Dict.set {α β : Type} [DecidableEq α] : Dict α β → α → β → Dict α β
  | [], k, v => [(k, v)]
  | (k', v') :: t, k, v => if k' = k then (k, v) :: t else (k', v') :: Dict.set t k v

/-- `d.get(k)`; `none` is the `KeyError` of `d[k]` (communication.py:160, 255-261). -/
def Dict.get {α β : Type} [DecidableEq α] : Dict α β → α → Option β
  | [], _ => none
  | (k', v') :: t, k => if k' = k then some v' else Dict.get t k

/-- The started processes: the physical node of each global rank, and the address
`socket.gethostbyname(socket.gethostname())` reported on each node (communication.py:120). -/
structure Layout where
  nodes : List Nat
  addr : Nat → Nat

/-- Rank in the host communicator (communication.py:123-129). `Split_type(COMM_TYPE_SHARED)` groups the processes of one
node and keeps their order, so it is the number of lower ranks on the same node. -/
def Layout.hostRank (l : Layout) (r : Nat) : Nat := (l.nodes.take r).countP (· == l.nodes.getD r 0)

/-- The result of `allgather` (communication.py:131-133). -/
def Layout.clusterInfo (l : Layout) : List (Nat × Nat × Nat) :=
  (List.range l.nodes.length).map fun r => (l.addr (l.nodes.getD r 0), r, l.hostRank r)

/-- `topology[host][host_rank] = global_rank` on a `defaultdict(dict)` (communication.py:134-138). -/
def insertInfo (t : Dict Nat (Dict Nat Nat)) (i : Nat × Nat × Nat) : Dict Nat (Dict Nat Nat) :=
  Dict.set t i.1 (Dict.set ((Dict.get t i.1).getD []) i.2.2 i.2.1)

/-- The attributes of `MPIState` (communication.py:95-110). -/
structure State where
  topology : Dict Nat (Dict Nat Nat)
  hostByRank : Dict Nat Nat
  monitors : List Nat
  workers : List Nat
deriving DecidableEq, Repr

/-- Exceptions of `MPIState` (communication.py:115-261). -/
inductive Err
  /-- `ValueError` for a host with fewer than two processes (communication.py:159-163). -/
  | loneHost
  /-- `KeyError` of a missing monitor. -/
  | keyError
deriving DecidableEq, Repr

/-- The loop over the hosts that collects the monitors (communication.py:158-166) in process `me`. Host entries with at
least two processes have a host rank 1; a missing one would be a `KeyError`. -/
def collectMonitors (me : Nat) : Dict Nat (Dict Nat Nat) → Except Err (List Nat)
  | [] => .ok []
  | (_, d) :: t =>
    if 2 ≤ d.length then
      match Dict.get d 1 with
      | some m => (collectMonitors me t).map (m :: ·)
      | none => .error .keyError
    else if me = 0 then .error .loneHost
    else collectMonitors me t

/-- `MPIState.__init__` in process `me` from the gathered information (communication.py:131-179); `shm` is
`is_shared_memory_supported()`. The warnings (140-156) are not modelled. -/
def mpiState (shm : Bool) (me : Nat) (info : List (Nat × Nat × Nat)) : Except Err State :=
  let topology := info.foldl insertInfo []
  let hostByRank := info.foldl (fun d i => Dict.set d i.2.1 i.1) []
  match (if shm then collectMonitors me topology else .ok [1]) with
  | .error e => .error e
  | .ok monitors =>
    .ok ⟨topology, hostByRank, monitors,
      topology.flatMap fun e => (e.2.map (·.2)).filter fun r => r ≠ 0 ∧ r ∉ monitors⟩

/-- `get_monitor_by_worker_rank` (communication.py:238-261); an unknown host or missing monitor is an error. -/
def State.monitorOf (s : State) (shm : Bool) (rank : Nat) : Except Err Nat :=
  if shm then
    match Dict.get s.hostByRank rank with
    | none => .error .keyError
    | some h =>
      match (Dict.get s.topology h).bind (Dict.get · 1) with
      | some m => .ok m
      | none => .error .keyError
  else .ok 1

/-- `cluster_resources` (controller/api.py:343-368): CPU count by host. -/
def State.clusterResources (s : State) : Dict Nat Nat :=
  s.topology.map fun e => (e.1, ((e.2.map (·.2)).filter fun r => r ≠ 0 ∧ r ∉ s.monitors).length)

/-- Number of processes to spawn (controller/api.py:211-216). -/
def nprocsToSpawn (shm : Bool) (cpuCount hostCount : Nat) : Nat :=
  if shm then cpuCount + hostCount else cpuCount + 1

/-- Slots per host under Open MPI (controller/api.py:221-226). `int(slot_count / host_count)` goes through a float;
exact division is used here (equal as long as the count is below 2^53). -/
def slotsPerHost (shm : Bool) (cpuCount hostCount : Nat) : List Nat :=
  let slotCount := nprocsToSpawn shm cpuCount hostCount + 1
  (List.range hostCount).map fun i => slotCount / hostCount + (if i < slotCount % hostCount then 1 else 0)

end Verif.Topology
