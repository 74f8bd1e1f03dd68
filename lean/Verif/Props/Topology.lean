import Verif.Lemmas.Topology
import Mathlib.Data.List.Perm.Subperm

/-! Properties C28–C31 and C80: roles, monitors, resources and slots. -/
namespace Verif.Topology

/-- Splits a successful start into its parts. -/
theorem mpiState_ok {shm : Bool} {me : Nat} {l : Layout} {s : State} (h : mpiState shm me l.clusterInfo = .ok s) :
    s.topology = l.clusterInfo.foldl insertInfo [] ∧
    s.hostByRank = l.clusterInfo.foldl (fun d i => Dict.set d i.2.1 i.1) [] ∧
    (if shm then collectMonitors me s.topology else .ok [1]) = .ok s.monitors ∧
    s.workers = s.topology.flatMap fun e => (e.2.map (·.2)).filter fun r => r ≠ 0 ∧ r ∉ s.monitors := by
  simp only [mpiState] at h
  split at h
  · simp at h
  · rename_i ms hms
    simp only [Except.ok.injEq] at h
    subst h
    exact ⟨rfl, rfl, hms, rfl⟩

theorem monitor_facts {shm : Bool} {me : Nat} {l : Layout} {s : State} (hd : l.Distinct)
    (h : mpiState shm me l.clusterInfo = .ok s) (h2 : shm = false → 2 ≤ l.nodes.length) :
    (∀ m ∈ s.monitors, m < l.nodes.length ∧ m ≠ 0) ∧ s.monitors.Nodup := by
  obtain ⟨e1, -, e3, -⟩ := mpiState_ok h
  have hi := topology_inv l hd
  rw [e1] at e3
  cases shm with
  | false =>
    simp only [Bool.false_eq_true, if_false, Except.ok.injEq] at e3
    rw [← e3]
    refine ⟨?_, by simp⟩
    intro m hm
    simp only [List.mem_singleton] at hm
    have := h2 rfl
    omega
  | true =>
    simp only [if_true] at e3
    refine ⟨?_, ?_⟩
    · intro m hm
      obtain ⟨a, d, h1, h2, h3⟩ := (collect_ok e3 m).1 hm
      have hg := (mem_iff_get _ hi.outer _ _).1 h1
      have := (hi.entry a 1 m).1 (by rw [hg]; exact h3)
      refine ⟨this.1, ?_⟩
      rintro rfl
      rw [hostRank_zero] at this
      omega
    · refine collect_nodup e3 ?_
      refine List.Pairwise.imp ?_ (topo_pairwise hi)
      intro x y hxy m hm hm'
      exact hxy m (get_mem_values hm) (get_mem_values hm')

theorem worker_facts {shm : Bool} {me : Nat} {l : Layout} {s : State} (hd : l.Distinct)
    (h : mpiState shm me l.clusterInfo = .ok s) :
    s.workers.Nodup ∧ ∀ r, r ∈ s.workers ↔ r < l.nodes.length ∧ r ≠ 0 ∧ r ∉ s.monitors := by
  obtain ⟨e1, -, -, e4⟩ := mpiState_ok h
  have hi := topology_inv l hd
  rw [← e1] at hi
  constructor
  · rw [e4, List.Nodup, List.pairwise_flatMap]
    refine ⟨?_, ?_⟩
    · intro e he
      exact (topo_nodup_values hi e.1 e.2 he).filter _
    · refine List.Pairwise.imp ?_ (topo_pairwise hi)
      intro x y hxy r hr t ht
      rintro rfl
      exact hxy r (List.mem_filter.1 hr).1 (List.mem_filter.1 ht).1
  · intro r
    rw [e4]
    simp only [List.mem_flatMap, List.mem_filter, decide_eq_true_eq]
    constructor
    · rintro ⟨e, he, h1, h2⟩
      exact ⟨((topo_values hi e.1 e.2 he r).1 h1).1, h2⟩
    · rintro ⟨h1, h2⟩
      obtain ⟨d, hd1, hd2⟩ := topo_has hi r h1
      exact ⟨_, hd1, get_mem_values hd2, h2⟩

theorem worker_count {shm : Bool} {me : Nat} {l : Layout} {s : State} (hd : l.Distinct)
    (h : mpiState shm me l.clusterInfo = .ok s) (h2 : shm = false → 2 ≤ l.nodes.length) (h0 : 0 < l.nodes.length) :
    s.workers.length + s.monitors.length + 1 = l.nodes.length := by
  obtain ⟨w1, w2⟩ := worker_facts hd h
  obtain ⟨m1, m2⟩ := monitor_facts hd h h2
  have hp : (0 :: (s.monitors ++ s.workers)).Perm (List.range l.nodes.length) := by
    rw [List.perm_ext_iff_of_nodup _ List.nodup_range]
    · intro r
      simp only [List.mem_cons, List.mem_append, List.mem_range, w2]
      constructor
      · rintro (rfl | h1 | h1)
        · exact h0
        · exact (m1 r h1).1
        · exact h1.1
      · intro hr
        by_cases hr0 : r = 0
        · exact Or.inl hr0
        · by_cases hm : r ∈ s.monitors
          · exact Or.inr (Or.inl hm)
          · exact Or.inr (Or.inr ⟨hr, hr0, hm⟩)
    · rw [List.nodup_cons, List.nodup_append, List.mem_append]
      refine ⟨?_, m2, w1, ?_⟩
      · rintro (hc | hc)
        · exact (m1 0 hc).2 rfl
        · exact ((w2 0).1 hc).2.1 rfl
      · intro a ha b hb hab
        subst hab
        exact ((w2 a).1 hb).2.2 ha
  have := hp.length_eq
  simp only [List.length_cons, List.length_append, List.length_range] at this
  omega

end Verif.Topology

namespace Verif.Props
open Verif.Topology

/-- C28: on hosts reporting different addresses, every process that starts is exactly one of root (rank 0), monitor and
worker, no list mentions a process twice or a process that does not exist. Without shared memory at least two processes
are needed. -/
theorem C28_one_role (l : Layout) (hd : ∀ m ∈ l.nodes, ∀ n ∈ l.nodes, l.addr m = l.addr n → m = n) (shm : Bool) (me : Nat)
    (h2 : shm = false → 2 ≤ l.nodes.length) (s : State) (h : mpiState shm me l.clusterInfo = .ok s) :
    s.workers.Nodup ∧ s.monitors.Nodup ∧ (∀ r, r ∈ s.monitors ∨ r ∈ s.workers → r < l.nodes.length) ∧
    ∀ r < l.nodes.length, (r = 0 ∧ r ∉ s.monitors ∧ r ∉ s.workers) ∨ (r ≠ 0 ∧ r ∈ s.monitors ∧ r ∉ s.workers) ∨
      (r ≠ 0 ∧ r ∉ s.monitors ∧ r ∈ s.workers) := by
  obtain ⟨w1, w2⟩ := worker_facts hd h
  obtain ⟨m1, m2⟩ := monitor_facts hd h h2
  refine ⟨w1, m2, ?_, ?_⟩
  · rintro r (hr | hr)
    · exact (m1 r hr).1
    · exact ((w2 r).1 hr).1
  · intro r hr
    by_cases hr0 : r = 0
    · subst hr0
      exact Or.inl ⟨rfl, fun hc => (m1 0 hc).2 rfl, fun hc => ((w2 0).1 hc).2.1 rfl⟩
    · by_cases hm : r ∈ s.monitors
      · exact Or.inr (Or.inl ⟨hr0, hm, fun hc => ((w2 r).1 hc).2.2 hm⟩)
      · exact Or.inr (Or.inr ⟨hr0, hm, (w2 r).2 ⟨hr, hr0, hm⟩⟩)

/-- C28: if the root process starts, every process starts and computes the same roles. -/
theorem C28_agreement (l : Layout) (shm : Bool) (me : Nat) (s : State) (h : mpiState shm 0 l.clusterInfo = .ok s) :
    mpiState shm me l.clusterInfo = .ok s := by
  have key : ∀ (t : Dict Nat (Dict Nat Nat)) ms, collectMonitors 0 t = .ok ms → collectMonitors me t = .ok ms := by
    intro t
    induction t with
    | nil => intro ms h; exact h
    | cons e t ih =>
      obtain ⟨a, d⟩ := e
      intro ms h
      simp only [collectMonitors] at h ⊢
      split at h
      · rename_i hl
        simp only [hl, if_true]
        split at h
        · rename_i m hm
          cases hc : collectMonitors 0 t with
          | error e => rw [hc] at h; simp [Except.map] at h
          | ok ms' => rw [hc] at h; rw [ih ms' hc]; exact h
        · simp at h
      · simp at h
  simp only [mpiState] at h ⊢
  cases shm with
  | false => exact h
  | true =>
    simp only [if_true] at h ⊢
    cases hc : collectMonitors 0 (l.clusterInfo.foldl insertInfo []) with
    | error e => rw [hc] at h; simp at h
    | ok ms => rw [hc] at h; rw [key _ ms hc]; exact h

/-- A cluster of two nodes with three processes each. -/
def twoNodes : Layout := ⟨[0, 0, 1, 0, 1, 1], fun n => n + 10⟩

example : mpiState true 0 twoNodes.clusterInfo =
    .ok ⟨[(10, [(0, 0), (1, 1), (2, 3)]), (11, [(0, 2), (1, 4), (2, 5)])],
      [(0, 10), (1, 10), (2, 11), (3, 10), (4, 11), (5, 11)], [1, 4], [3, 2, 5]⟩ := by rfl

/-- C29: with shared memory the monitor of a process runs on the same physical node, and it is a monitor (the
state is the same in all processes by `C28_agreement`). -/
theorem C29_same_host (l : Layout) (hd : ∀ m ∈ l.nodes, ∀ n ∈ l.nodes, l.addr m = l.addr n → m = n)
    (s : State) (h : mpiState true 0 l.clusterInfo = .ok s) (r : Nat) (hr : r < l.nodes.length) :
    ∃ m, s.monitorOf true r = .ok m ∧ m < l.nodes.length ∧ l.nodes.getD m 0 = l.nodes.getD r 0 ∧ m ∈ s.monitors := by
  obtain ⟨e1, e2, e3, -⟩ := mpiState_ok h
  have hi := topology_inv l hd
  rw [← e1] at hi
  have hb : Dict.get s.hostByRank r = some (l.addr (l.nodes.getD r 0)) := by
    rw [e2, Layout.clusterInfo, hostByRank_fold, if_pos hr]
  obtain ⟨d, d1, d2⟩ := topo_has hi r hr
  simp only [if_true] at e3
  have hlen := (collect_root e3).1 _ _ d1
  have d1' := d1
  rw [e1] at d1'
  obtain ⟨m, hm⟩ := two_le_iff l hd _ _ d1' hlen
  have hg := (mem_iff_get _ hi.outer _ _).1 d1
  have hmm := (hi.entry (l.addr (l.nodes.getD r 0)) 1 m).1 (by rw [hg]; exact hm)
  refine ⟨m, ?_, hmm.1, ?_, ?_⟩
  · simp only [State.monitorOf, if_true, hb]
    rw [hg]
    simp [hm]
  · exact hd _ (getD_mem _ _ hmm.1) _ (getD_mem _ _ hr) hmm.2.1
  · exact (collect_ok e3 m).2 ⟨_, d, d1, hlen, hm⟩

/-- C29: without shared memory all processes have the common monitor 1. -/
theorem C29_common_monitor (l : Layout) (me : Nat) (s : State) (h : mpiState false me l.clusterInfo = .ok s) (r : Nat) :
    s.monitorOf false r = .ok 1 ∧ s.monitors = [1] := by
  obtain ⟨-, -, e3, -⟩ := mpiState_ok h
  simp only [Bool.false_eq_true, if_false, Except.ok.injEq] at e3
  exact ⟨rfl, e3.symm⟩

/-- C29: with shared memory the root refuses to start exactly if some node runs a single process only. -/
theorem C29_lone_host_rejected (l : Layout) (hd : ∀ m ∈ l.nodes, ∀ n ∈ l.nodes, l.addr m = l.addr n → m = n) :
    (∃ s, mpiState true 0 l.clusterInfo = .ok s) ↔
      ∀ r < l.nodes.length, ∃ r' < l.nodes.length, r' ≠ r ∧ l.nodes.getD r' 0 = l.nodes.getD r 0 := by
  have hi := topology_inv l hd
  constructor
  · rintro ⟨s, h⟩ r hr
    obtain ⟨e1, e2, e3, -⟩ := mpiState_ok h
    simp only [if_true] at e3
    rw [e1] at e3
    obtain ⟨d, d1, d2⟩ := topo_has hi r hr
    have hlen := (collect_root e3).1 _ _ d1
    have hnd := topo_nodup_values hi _ _ d1
    have hv := topo_values hi _ _ d1
    have : ∃ r', r' ∈ d.map (·.2) ∧ r' ≠ r := by
      match d, hlen with
      | (x1, y1) :: (x2, y2) :: d', _ =>
        simp only [List.map_cons, List.nodup_cons, List.mem_cons, not_or] at hnd
        by_cases hy : y1 = r
        · exact ⟨y2, by simp, fun hc => hnd.1.1 (hy.trans hc.symm)⟩
        · exact ⟨y1, by simp, hy⟩
    obtain ⟨r', h1, h2⟩ := this
    obtain ⟨h3, h4⟩ := (hv r').1 h1
    exact ⟨r', h3, h2, hd _ (getD_mem _ _ h3) _ (getD_mem _ _ hr) h4⟩
  · intro hall
    have hlen : ∀ a d, (a, d) ∈ l.clusterInfo.foldl insertInfo [] → 2 ≤ d.length := by
      intro a d had
      obtain ⟨_, hne⟩ := hi.inner a d had
      have hv := topo_values hi a d had
      match d, hne with
      | [(x, y)], _ =>
        obtain ⟨y1, y2⟩ := (hv y).1 (by simp)
        obtain ⟨r', z1, z2, z3⟩ := hall y y1
        have := (hv r').2 ⟨z1, by rw [z3]; exact y2⟩
        simp only [List.map_cons, List.map_nil, List.mem_singleton] at this
        exact absurd this z2
      | _ :: _ :: d', _ => simp
    obtain ⟨ms, hms⟩ := collect_total 0 _ (fun a d had h2 => two_le_iff l hd a d had h2) (fun _ => hlen)
    exact ⟨_, by simp only [mpiState, if_true, hms]; rfl⟩

example : (mpiState true 0 twoNodes.clusterInfo).toOption.map (fun s => (s.monitorOf true 2, s.monitorOf true 3)) =
    some (.ok 4, .ok 1) := by rfl
example : mpiState true 0 (⟨[0, 0, 1], fun n => n⟩ : Layout).clusterInfo = .error .loneHost := by rfl

/-- C30: the reported CPU counts add up to the number of worker processes. -/
theorem C30_sum (l : Layout) (shm : Bool) (me : Nat) (s : State) (h : mpiState shm me l.clusterInfo = .ok s) :
    (s.clusterResources.map (·.2)).sum = s.workers.length := by
  obtain ⟨-, -, -, e4⟩ := mpiState_ok h
  rw [e4, List.length_flatMap, State.clusterResources, List.map_map]
  rfl

/-- C30: if the library starts the processes itself with shared memory, for `hostCount` configured hosts, and they run on any number of
hosts, the CPU counts add up to the configured CPU count, plus the hosts that are missing, minus those that were not configured: each
configured host is given a process for a monitor, and each actual one has a monitor. -/
theorem C30_any_hosts (l : Layout) (hd : ∀ m ∈ l.nodes, ∀ n ∈ l.nodes, l.addr m = l.addr n → m = n)
    (cpuCount hostCount : Nat) (hk : l.nodes.length = 1 + nprocsToSpawn true cpuCount hostCount) (s : State)
    (h : mpiState true 0 l.clusterInfo = .ok s) :
    (s.clusterResources.map (·.2)).sum + s.clusterResources.length = cpuCount + hostCount := by
  have hc := worker_count hd h (by simp) (by omega)
  rw [C30_sum l true 0 s h]
  obtain ⟨-, -, e3, -⟩ := mpiState_ok h
  simp only [if_true] at e3
  have := (collect_root e3).2
  simp only [State.clusterResources, List.length_map]
  simp only [nprocsToSpawn, if_true] at hk
  omega

-- three CPUs on two configured hosts, all on one: four workers
example : (mpiState true 0 (⟨[0, 0, 0, 0, 0, 0], fun n => 10 + n⟩ : Layout).clusterInfo).toOption.map State.clusterResources = some [(10, 4)] ∧
    1 + nprocsToSpawn true 3 2 = 6 := by exact ⟨by rfl, by rfl⟩

/-- C30: if the library starts the processes itself, the root included in their number, and they run on as many hosts as
configured, the CPU counts add up to the configured CPU count. Without shared memory the number of hosts does not
matter. -/
theorem C30_configured (l : Layout) (hd : ∀ m ∈ l.nodes, ∀ n ∈ l.nodes, l.addr m = l.addr n → m = n) (shm : Bool)
    (cpuCount hostCount : Nat) (hk : l.nodes.length = 1 + nprocsToSpawn shm cpuCount hostCount) (s : State)
    (h : mpiState shm 0 l.clusterInfo = .ok s) (hh : shm = true → s.clusterResources.length = hostCount) :
    (s.clusterResources.map (·.2)).sum = cpuCount := by
  have h2 : shm = false → 2 ≤ l.nodes.length := by
    rintro rfl
    rw [hk]; simp only [nprocsToSpawn]; simp; omega
  have hc := worker_count hd h h2 (by omega)
  rw [C30_sum l shm 0 s h]
  obtain ⟨-, -, e3, -⟩ := mpiState_ok h
  cases shm with
  | false =>
    simp only [Bool.false_eq_true, if_false, Except.ok.injEq] at e3
    rw [← e3] at hc
    simp only [nprocsToSpawn, Bool.false_eq_true, if_false] at hk
    simp only [List.length_singleton] at hc
    omega
  | true =>
    simp only [if_true] at e3
    have := (collect_root e3).2
    have hl := hh rfl
    simp only [State.clusterResources, List.length_map] at hl
    simp only [nprocsToSpawn, if_true] at hk
    omega

example : (mpiState true 0 twoNodes.clusterInfo).toOption.map State.clusterResources = some [(10, 1), (11, 2)] ∧
    twoNodes.nodes.length = 1 + nprocsToSpawn true 3 2 := by exact ⟨by rfl, by rfl⟩

theorem sum_range_step (q m : Nat) (n : Nat) :
    ((List.range n).map fun i => q + (if i < m then 1 else 0)).sum = n * q + min n m := by
  induction n with
  | zero => simp
  | succ n ih =>
    rw [List.range_succ, List.map_append, List.sum_append, ih]
    simp only [List.map_cons, List.map_nil, List.sum_cons, List.sum_nil, Nat.add_mul, Nat.one_mul]
    split <;> omega

/-- C31: the slots add up to the number of all processes, root included, and differ by at most one. -/
theorem C31_slots (shm : Bool) (cpuCount hostCount : Nat) (h : 0 < hostCount) :
    (slotsPerHost shm cpuCount hostCount).length = hostCount ∧
    (slotsPerHost shm cpuCount hostCount).sum = (if shm then cpuCount + hostCount else cpuCount + 1) + 1 ∧
    ∀ a ∈ slotsPerHost shm cpuCount hostCount, ∀ b ∈ slotsPerHost shm cpuCount hostCount, a ≤ b + 1 := by
  simp only [slotsPerHost]
  refine ⟨by simp, ?_, ?_⟩
  · rw [sum_range_step]
    have h1 := Nat.div_add_mod (nprocsToSpawn shm cpuCount hostCount + 1) hostCount
    have h2 := Nat.mod_lt (nprocsToSpawn shm cpuCount hostCount + 1) h
    simp only [nprocsToSpawn] at h1 h2 ⊢
    omega
  · intro a ha b hb
    simp only [List.mem_map, List.mem_range] at ha hb
    obtain ⟨i, -, rfl⟩ := ha
    obtain ⟨j, -, rfl⟩ := hb
    split <;> split <;> omega

example : slotsPerHost true 10 3 = [5, 5, 4] := by decide

/-- C80, full statement: whatever addresses the hosts report, every process but the root is a monitor or a worker. -/
def C80_full : Prop := ∀ (l : Layout) (s : State), mpiState true 0 l.clusterInfo = .ok s →
  ∀ r < l.nodes.length, r ≠ 0 → r ∈ s.monitors ∨ r ∈ s.workers

/-- The code violates C80: with two nodes of two processes that report the same address (for example 127.0.1.1), the
entries of the first node are overwritten and rank 1 is neither monitor nor worker; without shared memory a worker is
lost in the same way. -/
theorem C80_violated : ¬ C80_full := by
  intro h
  have := h ⟨[0, 0, 1, 1], fun _ => 7⟩ ⟨[(7, [(0, 2), (1, 3)])], [(0, 7), (1, 7), (2, 7), (3, 7)], [3], [2]⟩ rfl 1 (by decide) (by decide)
  revert this
  decide

/-- The monitor assigned to a process can then be on another node, where the shared segment is not accessible. -/
theorem C80_foreign_monitor_violated : ∃ (l : Layout) (s : State), mpiState true 0 l.clusterInfo = .ok s ∧
    s.monitorOf true 0 = .ok 3 ∧ l.nodes.getD 3 0 ≠ l.nodes.getD 0 0 :=
  ⟨⟨[0, 0, 1, 1], fun _ => 7⟩, ⟨[(7, [(0, 2), (1, 3)])], [(0, 7), (1, 7), (2, 7), (3, 7)], [3], [2]⟩, rfl, rfl, by decide⟩

/-- C80, proved part: a single host is handled correctly whatever it reports. Missing: several hosts with equal
addresses (violated). -/
theorem C80_single_host_partial (k : Nat) (a : Nat → Nat) (s : State)
    (h : mpiState true 0 (⟨List.replicate k 0, a⟩ : Layout).clusterInfo = .ok s) (r : Nat) (hr : r < k) (h0 : r ≠ 0) :
    r ∈ s.monitors ∨ r ∈ s.workers := by
  have hd : (⟨List.replicate k 0, a⟩ : Layout).Distinct := by
    intro m hm n hn _
    rw [(List.mem_replicate.1 hm).2, (List.mem_replicate.1 hn).2]
  have := (worker_facts hd h).2 r
  by_cases hm : r ∈ s.monitors
  · exact Or.inl hm
  · exact Or.inr (this.2 ⟨by simpa using hr, h0, hm⟩)

/-- C80, exactly: whatever addresses the hosts report, a process other than the root gets a role if and only if no later process of a
host that reports the same address is the same in the count of processes of its own host. -/
theorem C80_roles_exactly_partial (l : Layout) (s : State) (me : Nat) (h : mpiState true me l.clusterInfo = .ok s) (r : Nat)
    (hr : r < l.nodes.length) (h0 : r ≠ 0) :
    (r ∈ s.monitors ∨ r ∈ s.workers) ↔
      ∀ r', r < r' → r' < l.nodes.length → l.addr (l.nodes.getD r' 0) = l.addr (l.nodes.getD r 0) →
        (l.nodes.take r').count (l.nodes.getD r' 0) ≠ (l.nodes.take r).count (l.nodes.getD r 0) := by
  obtain ⟨e1, -, e3, e4⟩ := mpiState_ok h
  have hi := topology_last l
  rw [← e1] at hi
  have hm := mem_topology hi r
  have hin : (r ∈ s.monitors ∨ r ∈ s.workers) ↔ ∃ e ∈ s.topology, r ∈ e.2.map (·.2) := by
    simp only [if_true] at e3
    constructor
    · rintro (hr' | hr')
      · obtain ⟨a, d, a1, -, a3⟩ := (collect_ok e3 r).1 hr'
        exact ⟨(a, d), a1, get_mem_values a3⟩
      · rw [e4] at hr'
        obtain ⟨e, he, a1⟩ := List.mem_flatMap.1 hr'
        exact ⟨e, he, (List.mem_filter.1 a1).1⟩
    · rintro ⟨e, he, a1⟩
      by_cases hmon : r ∈ s.monitors
      · exact .inl hmon
      · right
        rw [e4]
        exact List.mem_flatMap.2 ⟨e, he, List.mem_filter.2 ⟨a1, by simp [h0, hmon]⟩⟩
  rw [hin, hm]
  simp only [hr, true_and, Layout.hostRank]
  rfl

/-- C80, exactly, the monitor that a process turns to: the last of the processes that are second on their host, among the hosts that
report the same address. So it is on another host as soon as the last such process is. -/
theorem C80_monitor_exactly_partial (l : Layout) (s : State) (me : Nat) (h : mpiState true me l.clusterInfo = .ok s) (r m : Nat)
    (hr : r < l.nodes.length) :
    s.monitorOf true r = .ok m ↔
      m < l.nodes.length ∧ l.addr (l.nodes.getD m 0) = l.addr (l.nodes.getD r 0) ∧ (l.nodes.take m).count (l.nodes.getD m 0) = 1 ∧
      ∀ m', m < m' → m' < l.nodes.length → l.addr (l.nodes.getD m' 0) = l.addr (l.nodes.getD r 0) →
        (l.nodes.take m').count (l.nodes.getD m' 0) ≠ 1 := by
  obtain ⟨e1, e2, -, -⟩ := mpiState_ok h
  have hi := topology_last l
  rw [← e1] at hi
  have hh : Dict.get s.hostByRank r = some (l.addr (l.nodes.getD r 0)) := by
    rw [e2]
    have := hostByRank_fold (fun r => l.addr (l.nodes.getD r 0)) l.hostRank l.nodes.length r
    simpa [Layout.clusterInfo, hr] using this
  have key := hi.entry (l.addr (l.nodes.getD r 0)) 1 m
  simp only [State.monitorOf, if_true, hh]
  cases hb : (Dict.get s.topology (l.addr (l.nodes.getD r 0))).bind (Dict.get · 1) with
  | none =>
    rw [hb] at key
    simp only [reduceCtorEq, false_iff] at key ⊢
    exact key
  | some m' =>
    rw [hb] at key
    simp only [Option.some.injEq] at key
    simp only [Except.ok.injEq]
    exact key

/-- Three hosts, the second and the third report the same address: ranks 2 and 3 of the second host are lost, rank 4 is not. -/
example : ∃ s : State, mpiState true 0 (⟨[0, 0, 1, 1, 1, 2, 2], fun n => if n = 0 then 5 else 6⟩ : Layout).clusterInfo = .ok s ∧
    s.monitors = [1, 6] ∧ s.workers = [5, 4] ∧ s.monitorOf true 2 = .ok 6 := ⟨_, rfl, rfl, rfl, rfl⟩

end Verif.Props
