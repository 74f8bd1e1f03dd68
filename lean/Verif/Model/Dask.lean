import Mathlib.Data.List.Dedup

/-!
# Dask backend

Models `/repo/unidist/core/backends/dask/backend.py`. Futures are numbers; `distributed` itself is not modelled: its `wait` is described
by when each future finishes, its `scheduler_info` by the host and thread count of every worker.
-/
namespace Verif.Dask

/-- Whether a future has finished at a time; `completion` is when each future finishes, if ever (backend.py:100-131). -/
def finishedBy (completion : Nat → Option Nat) (t f : Nat) : Bool :=
  match completion f with
  | some c => decide (c ≤ t)
  | none => false

/-- `wait(futures, return_when="FIRST_COMPLETED")` (backend.py:121, 123), called at time `now`: returns some time after the first of the
futures has finished, with the set of finished and the set of unfinished ones; `none` if none of them ever finishes. A list may
contain a future several times, the sets do not. Cancelled futures, for which `distributed` raises, are not modelled. -/
def waitFirst (completion : Nat → Option Nat) (now delay : Nat) (futures : List Nat) : Option (Nat × List Nat × List Nat) :=
  match (futures.filterMap completion).min? with
  | none => if futures = [] then some (now + delay, [], []) else none
  | some t =>
    let now' := max now t + delay
    some (now', futures.dedup.filter (finishedBy completion now'), futures.dedup.filter fun f => !finishedBy completion now' f)

/-- The loop of lines 122-124 with the delay of each call. `none`: the loop does not end. The fuel is the number of unfinished futures;
every call finds a finished one, unless none is left, in which case `wait` returns at once again and again (backend.py:122-124). -/
def collect (completion : Nat → Option Nat) (n : Nat) : Nat → Nat → (Nat → Nat) → List Nat → List Nat → Option (Nat × List Nat × List Nat)
  | fuel, now, delays, done, notDone =>
    if n ≤ done.length then some (now, done, notDone)
    else
      match fuel with
      | 0 => none
      | fuel + 1 =>
        match waitFirst completion now (delays fuel) notDone with
        | none => none
        | some (now', extra, notDone') => collect completion n fuel now' delays (done ++ extra) notDone'

/-- Lines 127-129: futures are moved from the end of `done` until `n` are left. The fuel is the length of `done`
(backend.py:127-129). -/
def moveBack (n : Nat) : Nat → List Nat → List Nat → List Nat × List Nat
  | fuel, done, notDone =>
    if done.length = n then (done, notDone)
    else
      match fuel, done.getLast? with
      | fuel + 1, some last => moveBack n fuel done.dropLast (notDone ++ [last])
      | _, _ => (done, notDone)

/-- `wait` (backend.py:100-131), called at time `now`; `delay` and `delays` are the delays of the calls of lines 121 and 123, `order` is
the order in which a set is iterated (126). The first component is the time of the return. -/
def wait (completion : Nat → Option Nat) (now delay : Nat) (delays : Nat → Nat) (order : List Nat → List Nat) (futures : List Nat) (n : Nat) :
    Option (Nat × List Nat × List Nat) :=
  match waitFirst completion now delay futures with
  | none => none
  | some (t, done, notDone) =>
    match collect completion n notDone.length t delays done notDone with
    | none => none
    | some (t, done, notDone) => some (t, moveBack n (order done).length (order done) (order notDone))

/-! ## Resources -/

/-- A dictionary from addresses to CPU counts in insertion order (backend.py:168). -/
abbrev Resources := List (String × Nat)

/-- `cluster_resources[host]["CPU"] += nthreads` on the `defaultdict` (backend.py:168-170). -/
def addThreads : Resources → String → Nat → Resources
  | [], host, t => [(host, t)]
  | (h, c) :: rest, host, t => if h = host then (h, c + t) :: rest else (h, c) :: addThreads rest host t

/-- `cluster_resources[host] = …` (backend.py:174). -/
def assign : Resources → String → Nat → Resources
  | [], host, c => [(host, c)]
  | (h, c') :: rest, host, c => if h = host then (h, c) :: rest else (h, c') :: assign rest host c

/-- `127.0.0.1` (backend.py:172). -/
def localhost : String := "127.0.0.1"

/-- `cluster_resources` (backend.py:157-175), given the hosts and thread counts of the workers and the result of `get_ip()`. -/
def clusterResources (workers : List (String × Nat)) (ip : String) : Resources :=
  let res := workers.foldl (fun r w => addThreads r w.1 w.2) []
  match res.find? (·.1 = localhost) with
  | some (_, c) => assign (res.filter (·.1 ≠ localhost)) ip c
  | none => res

/-- `num_cpus` (backend.py:146-154): `ncores()` has an entry for every worker. -/
def numCpus (workers : List (String × Nat)) : Nat := workers.length

end Verif.Dask
