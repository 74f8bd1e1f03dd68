import Verif.Lemmas.Shutdown
import Verif.Model.Topology

/-! Properties of the shutdown protocol (C50, C51). -/
namespace Verif.Props
open Verif.Shutdown

/-- Ranks of a cluster: the roles are disjoint, the root is rank 0 and its monitor is one of the monitors. -/
def Roles (c : Cfg) : Prop :=
  (0 :: (c.workers ++ c.monitors)).Nodup ∧ c.rootMonitor ∈ c.monitors

theorem valid_of_roles {c : Cfg} (h : Roles c) (hw : c.workers ≠ []) : Valid c := by
  obtain ⟨h1, h2⟩ := h
  simp only [List.nodup_cons, List.mem_append, not_or, List.nodup_append] at h1
  exact ⟨h1.2.1, h1.2.2.1, fun w hw' hm => h1.2.2.2 w hw' w hm rfl, h1.1.1, h1.1.2, h2, hw⟩

/-- Nothing more of the shutdown can happen: no message can be received, no `CANCEL` remains to be sent and no worker
returns from `finish`. -/
def Stuck (c : Cfg) (s : State) : Prop :=
  step c s .cancelNext = none ∧ (∀ w, step c s (.finished w) = none) ∧ ∀ m, step c s (.deliver m) = none

/-! ### C50 -/

/-- **C50** as stated, for the part about the end: once `shutdown` was called, when nothing more can happen the root has
returned, every worker and monitor has left its loop and no message is under way. -/
def C50_full : Prop := ∀ (c : Cfg), Roles c → ∀ (acts : List Act) (s : State), run c State.init acts = some s →
  s.root ≠ .idle → Stuck c s →
  s.root = .done ∧ (∀ w ∈ c.workers, s.worker w = .left) ∧ (∀ m ∈ c.monitors, s.monitor m = .left) ∧ s.net = []

/-- Decidable check of `Stuck`. -/
def stuckCheck (c : Cfg) (s : State) : Bool :=
  (step c s .cancelNext).isNone && c.workers.all (fun w => (step c s (.finished w)).isNone) &&
    s.net.all fun m => (step c s (.deliver m)).isNone

theorem stuck_of_check {c : Cfg} {s : State} (h : stuckCheck c s = true) : Stuck c s := by
  simp only [stuckCheck, Bool.and_eq_true, List.all_eq_true, Option.isNone_iff_eq_none] at h
  obtain ⟨⟨h1, h2⟩, h3⟩ := h
  refine ⟨h1, fun w => ?_, fun m => ?_⟩
  · by_cases hw : w ∈ c.workers
    · exact h2 w hw
    · simp [step, hw]
  · by_cases hm : m ∈ s.net
    · exact h3 m hm
    · simp [step, hm]

theorem full_refuted {c : Cfg} (hc : Roles c) (acts : List Act)
    (h : (run c State.init acts).map (fun s => stuckCheck c s && (s.root != .idle) && (s.root != .done || s.net != [])) = some true) :
    ¬ C50_full := by
  intro hf
  obtain ⟨s, hr, hs⟩ := Option.map_eq_some_iff.1 h
  simp only [Bool.and_eq_true, bne_iff_ne, ne_eq, Bool.or_eq_true] at hs
  obtain ⟨⟨h1, h2⟩, h3⟩ := hs
  have := hf c hc acts s hr h2 (stuck_of_check h1)
  rcases h3 with h3 | h3
  · exact h3 this.1
  · exact h3 this.2.2.2

/-- The code violates C50: with shared memory and ranks spread over two hosts in turn, the monitor of the root is rank 2,
but the root waits for a message of rank 1 and never returns. -/
theorem C50_monitor_violated : ¬ C50_full :=
  full_refuted (c := ⟨[1], [2, 3], 2⟩) ⟨by decide, by decide⟩
    [.shutdown, .cancelNext, .cancelNext, .deliver ⟨0, 1, .cancel⟩, .finished 1, .deliver ⟨1, 2, .ready⟩,
      .deliver ⟨2, 1, .stop⟩, .deliver ⟨2, 3, .stop⟩] (by decide +kernel)

-- the roles used in the witness are those of four processes on two hosts in turn
example : Topology.mpiState true 0 (Topology.Layout.clusterInfo ⟨[0, 1, 0, 1], id⟩) =
    .ok ⟨[(0, [(0, 0), (1, 2)]), (1, [(0, 1), (1, 3)])], [(0, 0), (1, 1), (2, 0), (3, 1)], [2, 3], [1]⟩ := by decide

example : Topology.State.monitorOf ⟨[(0, [(0, 0), (1, 2)]), (1, [(0, 1), (1, 3)])], [(0, 0), (1, 1), (2, 0), (3, 1)], [2, 3], [1]⟩
    true 0 = .ok 2 := by decide

/-- The code violates C50: two workers that are sending each other large data when they are told to stop both wait in
`finish` for the other to receive. -/
theorem C50_finish_violated : ¬ C50_full :=
  full_refuted (c := ⟨[2, 3], [1], 1⟩) ⟨by decide, by decide⟩
    [.send 2 3 true, .send 3 2 true, .shutdown, .cancelNext, .cancelNext, .cancelNext, .deliver ⟨0, 2, .cancel⟩,
      .deliver ⟨0, 3, .cancel⟩] (by decide +kernel)

/-- The code violates C50: without workers the root waits for ever. -/
theorem C50_no_workers_violated : ¬ C50_full :=
  full_refuted (c := ⟨[], [1], 1⟩) ⟨by decide, by decide⟩ [.shutdown, .cancelNext] (by decide +kernel)

/-- The code violates C50: a small message sent before the stop request can be overtaken by the farewell of the monitor and
then has no receiver. -/
theorem C50_stray_violated : ¬ C50_full :=
  full_refuted (c := ⟨[2, 3], [1], 1⟩) ⟨by decide, by decide⟩
    [.send 2 3 false, .shutdown, .cancelNext, .cancelNext, .cancelNext, .deliver ⟨0, 2, .cancel⟩, .deliver ⟨0, 3, .cancel⟩,
      .finished 2, .finished 3, .deliver ⟨2, 1, .ready⟩, .deliver ⟨3, 1, .ready⟩, .deliver ⟨1, 2, .stop⟩, .deliver ⟨1, 3, .stop⟩,
      .deliver ⟨1, 0, .stopObject⟩] (by decide +kernel)

/-- The code violates C50: a coroutine that is still running when its worker is told to stop may report to a monitor that
has left. -/
theorem C50_coroutine_violated : ¬ C50_full :=
  full_refuted (c := ⟨[2], [1], 1⟩) ⟨by decide, by decide⟩
    [.shutdown, .cancelNext, .cancelNext, .deliver ⟨0, 2, .cancel⟩, .finished 2, .deliver ⟨2, 1, .ready⟩, .coroutine 2 false,
      .deliver ⟨1, 2, .stop⟩, .deliver ⟨1, 0, .stopObject⟩] (by decide +kernel)

/-- No worker leaves its loop before every worker has announced that it is ready. Holds for all roles with a worker, all
traffic and all delivery orders, unless a signal interrupts the call (see C51). -/
theorem C50_no_early_leave (c : Cfg) (hc : Roles c) (acts : List Act) (ha : Act.interrupt ∉ acts) (s : State)
    (hr : run c State.init acts = some s) (w : Nat) (hw : w ∈ c.workers) (hl : s.worker w = .left) (v : Nat)
    (hv : v ∈ c.workers) : s.worker v = .ready ∨ s.worker v = .left := by
  have hc' := valid_of_roles hc (List.ne_nil_of_mem hw)
  have h := inv_run hc' (inv_init hc') acts ha hr
  exact (h.readyMem v (stopped_all h (h.leftW w hw hl) v hv)).2

/-- The root returns only after every worker and monitor has left or has the stop message on its way. -/
theorem C50_root_last (c : Cfg) (hc : Roles c) (hne : c.workers ≠ []) (acts : List Act) (ha : Act.interrupt ∉ acts) (s : State)
    (hr : run c State.init acts = some s) (hd : s.root = .done) :
    (∀ w ∈ c.workers, s.worker w = .left ∨ (s.worker w = .ready ∧ ⟨c.rootMonitor, w, .stop⟩ ∈ s.net)) ∧
      (∀ m ∈ c.monitors, s.monitor m = .left ∨ (s.monitor m = .running ∧ ⟨c.rootMonitor, m, .stop⟩ ∈ s.net)) := by
  have hc' := valid_of_roles hc hne
  have h := inv_run hc' (inv_init hc') acts ha hr
  have hl := h.doneR hd
  constructor
  · intro w hw
    rcases (h.readyMem w (stopped_all h hl w hw)).2 with hp | hp
    · exact Or.inr ⟨hp, (h.mem _ (by simp)).2 ⟨rfl, hl, fun (e : w = c.rootMonitor) => hc'.disjoint w hw (e ▸ hc'.mon), Or.inl ⟨hw, hp⟩⟩⟩
    · exact Or.inl hp
  · intro m hm
    rcases h.phaseM m with hp | hp
    · refine Or.inr ⟨hp, (h.mem _ (by simp)).2 ⟨rfl, hl, ?_, Or.inr ⟨hm, hp⟩⟩⟩
      rintro rfl
      rw [hl] at hp; simp at hp
    · exact Or.inl hp

/-- No worker or monitor dies of an unexpected message, and no message of the shutdown is addressed to a process that has
left. -/
theorem C50_no_stray_protocol (c : Cfg) (hc : Roles c) (hne : c.workers ≠ []) (acts : List Act) (ha : Act.interrupt ∉ acts)
    (s : State) (hr : run c State.init acts = some s) :
    (∀ w, s.worker w ≠ .crashed) ∧ (∀ m, s.monitor m ≠ .crashed) ∧
      ∀ m ∈ s.net, (∀ y, m.kind ≠ .data y) →
        (m.dst = 0 ∧ s.root ≠ .done) ∨ (m.dst ∈ c.workers ∧ s.worker m.dst ≠ .left) ∨
        (m.dst ∈ c.monitors ∧ (s.monitor m.dst ≠ .left)) := by
  have hc' := valid_of_roles hc hne
  have h := inv_run hc' (inv_init hc') acts ha hr
  refine ⟨h.phaseW, fun m => by rcases h.phaseM m with hp | hp <;> rw [hp] <;> simp, ?_⟩
  intro m hm hk
  have hu := (h.mem m hk).1 hm
  obtain ⟨src, dst, kind⟩ := m
  cases kind with
  | data y => exact absurd rfl (hk y)
  | cancel =>
    obtain ⟨-, h2, -, h4⟩ := hu
    exact Or.inr (Or.inl ⟨h2, by rw [h4]; simp⟩)
  | stopObject =>
    obtain ⟨-, h2, -, h4⟩ := hu
    exact Or.inl ⟨h2, h4⟩
  | ready =>
    obtain ⟨h1, h2, h3, h4⟩ := hu
    simp only at h1 h2 h3 h4
    subst h1
    refine Or.inr (Or.inr ⟨hc'.mon, fun hl => h4 (stopped_all h hl src h2)⟩)
  | stop =>
    obtain ⟨-, -, -, ⟨h2, h4⟩ | ⟨h2, h4⟩⟩ := hu
    · exact Or.inr (Or.inl ⟨h2, by rw [h4]; simp⟩)
    · exact Or.inr (Or.inr ⟨h2, by rw [h4]; simp⟩)

/-- The part of C50 about the end that holds: if the root's monitor is rank 1, there is a worker and no other message is under
way, then when nothing more can happen the root has returned, everybody has left and no message is under way. Missing: other
ranks of the root's monitor, no workers, and traffic during the shutdown, for which it is false. -/
theorem C50_ends_partial (c : Cfg) (hc : Roles c) (hne : c.workers ≠ []) (h1 : c.rootMonitor = 1) (acts : List Act)
    (ha : Act.interrupt ∉ acts) (s : State) (hr : run c State.init acts = some s) (hi : s.root ≠ .idle)
    (hq : ∀ m ∈ s.net, ∀ y, m.kind ≠ .data y) (hs : Stuck c s) :
    s.root = .done ∧ (∀ w ∈ c.workers, s.worker w = .left) ∧ (∀ m ∈ c.monitors, s.monitor m = .left) ∧ s.net = [] := by
  have hc' := valid_of_roles hc hne
  have h := inv_run hc' (inv_init hc') acts ha hr
  obtain ⟨e1, e2, e3⟩ := progress hc' h1 h hi (fun m hm => hq m hm true) (by
    intro a hp
    cases a with
    | cancelNext => exact hs.1
    | finished w => exact hs.2.1 w
    | deliver m => exact hs.2.2 m
    | _ => simp [Act.protocol] at hp)
  refine ⟨e1, e2, e3, ?_⟩
  rw [List.eq_nil_iff_forall_not_mem]
  intro m hm
  rcases (C50_no_stray_protocol c hc hne acts ha s hr).2.2 m hm (hq m hm) with hp | hp | hp
  · exact hp.2 e1
  · exact hp.2 (e2 _ hp.1)
  · exact hp.2 (e3 _ hp.1)

/-- What the root can receive comes from its monitor. -/
private def FromMonitor (c : Cfg) (s : State) : Prop :=
  (∀ m ∈ s.net, m.kind = .ready → m.dst = c.rootMonitor ∧ c.workers ≠ []) ∧
  (∀ m ∈ s.net, m.kind = .stopObject → m.src = c.rootMonitor ∧ c.workers ≠ []) ∧
  (s.root = .done → c.rootMonitor = 1 ∧ c.workers ≠ [])

private theorem fromMonitor_step {c : Cfg} {s s' : State} {a : Act} (h : FromMonitor c s) (hs : step c s a = some s') : FromMonitor c s' := by
  obtain ⟨h1, h2, h3⟩ := h
  have e1 : ∀ m', ∀ m ∈ s.net.erase m', m ∈ s.net := fun m' m hm => List.mem_of_mem_erase hm
  cases a with
  | shutdown =>
    simp only [step] at hs
    split at hs
    · cases hs; exact ⟨h1, h2, by simp⟩
    · cases hs; exact ⟨h1, h2, h3⟩
    · cases hs
  | interrupt =>
    simp only [step] at hs
    split at hs
    · cases hs; exact ⟨h1, h2, by simp⟩
    · cases hs; exact ⟨h1, h2, by simp⟩
    · cases hs
  | cancelNext =>
    simp only [step] at hs
    split at hs
    · cases hs
      refine ⟨fun m hm => ?_, fun m hm => ?_, by simp⟩
      · rcases List.mem_append.1 hm with hm | hm
        · exact h1 m hm
        · rw [List.mem_singleton.1 hm]; simp
      · rcases List.mem_append.1 hm with hm | hm
        · exact h2 m hm
        · rw [List.mem_singleton.1 hm]; simp
    · cases hs; exact ⟨h1, h2, by simp⟩
    · cases hs
  | send src dst sync =>
    simp only [step] at hs
    split at hs
    · cases hs
      refine ⟨fun m hm => ?_, fun m hm => ?_, h3⟩
      · rcases List.mem_append.1 hm with hm | hm
        · exact h1 m hm
        · rw [List.mem_singleton.1 hm]; simp
      · rcases List.mem_append.1 hm with hm | hm
        · exact h2 m hm
        · rw [List.mem_singleton.1 hm]; simp
    · cases hs
  | coroutine w sync =>
    simp only [step] at hs
    split at hs
    · cases hs
      refine ⟨fun m hm => ?_, fun m hm => ?_, h3⟩
      · rcases List.mem_append.1 hm with hm | hm
        · exact h1 m hm
        · rw [List.mem_singleton.1 hm]; simp
      · rcases List.mem_append.1 hm with hm | hm
        · exact h2 m hm
        · rw [List.mem_singleton.1 hm]; simp
    · cases hs
  | finished w =>
    simp only [step] at hs
    split at hs
    · rename_i hw
      cases hs
      refine ⟨fun m hm => ?_, fun m hm => ?_, h3⟩
      · rcases List.mem_append.1 hm with hm | hm
        · exact h1 m hm
        · rw [List.mem_singleton.1 hm]; exact fun _ => ⟨rfl, List.ne_nil_of_mem hw.1⟩
      · rcases List.mem_append.1 hm with hm | hm
        · exact h2 m hm
        · rw [List.mem_singleton.1 hm]; simp
    · cases hs
  | deliver x =>
    simp only [step] at hs
    split at hs
    · rename_i hx
      have drop : ∀ (w : Nat → Phase) (mo : Nat → Phase) (ra : Nat → List Nat),
          FromMonitor c { s with worker := w, monitor := mo, readyAt := ra, net := s.net.erase x } :=
        fun _ _ _ => ⟨fun m hm => h1 m (e1 x m hm), fun m hm => h2 m (e1 x m hm), h3⟩
      split at hs
      · simp only [recvRoot] at hs
        split at hs
        · rename_i hk
          cases hs
          refine ⟨fun m hm => h1 m (e1 x m hm), fun m hm => h2 m (e1 x m hm), fun _ => ?_⟩
          have := h2 x hx hk.2.1
          exact ⟨by rw [← this.1]; exact hk.2.2, this.2⟩
        · cases hs
      · split at hs
        · simp only [recvMonitor] at hs
          split at hs
          · split at hs
            · rename_i hk
              split at hs
              · cases hs
                refine ⟨fun m hm => ?_, fun m hm => ?_, h3⟩
                · rcases List.mem_append.1 hm with hm | hm
                  · exact h1 m (e1 x m hm)
                  · simp only [farewell, List.mem_append, List.mem_map, List.mem_singleton] at hm
                    rcases hm with ⟨d, -, rfl⟩ | rfl <;> simp
                · rcases List.mem_append.1 hm with hm | hm
                  · exact h2 m (e1 x m hm)
                  · simp only [farewell, List.mem_append, List.mem_map, List.mem_singleton] at hm
                    rcases hm with ⟨d, -, rfl⟩ | rfl
                    · simp
                    · exact fun _ => h1 x hx hk
              · cases hs; exact drop _ _ _
            · cases hs; exact drop _ _ _
            · cases hs; exact drop _ _ _
            · cases hs; exact drop _ _ _
            · cases hs
          · cases hs
        · simp only [recvWorker] at hs
          split at hs <;> first | (cases hs; exact drop _ _ _) | cases hs
    · cases hs

/-- Exactly in which clusters `shutdown` can return at all: whatever happens, also with other traffic and signals, the root returns only if its
monitor is rank 1 and there is a worker. In every other cluster the call waits for ever. -/
theorem C50_returns_partial (c : Cfg) (acts : List Act) (s : State) (hr : run c State.init acts = some s) (hd : s.root = .done) :
    c.rootMonitor = 1 ∧ c.workers ≠ [] := by
  have key : ∀ (acts : List Act) (t : State), FromMonitor c t → run c t acts = some s → FromMonitor c s := by
    intro acts
    induction acts with
    | nil => intro t h h'; simp only [run, Option.some.injEq] at h'; rw [← h']; exact h
    | cons a l ih =>
      intro t h h'
      simp only [run, Option.bind_eq_some_iff] at h'
      obtain ⟨t', h1, h2⟩ := h'
      exact ih t' (fromMonitor_step h h1) h2
  exact (key acts State.init ⟨by simp [State.init], by simp [State.init], by simp [State.init]⟩ hr).2.2 hd

/-- The monitor of the root is rank 2: the message that it has stopped is there, but the root does not receive it. -/
example : (run ⟨[3], [1, 2], 2⟩ State.init [.shutdown, .cancelNext, .cancelNext, .deliver ⟨0, 3, .cancel⟩, .finished 3,
    .deliver ⟨3, 2, .ready⟩]).map (fun s => (s.root, decide (⟨2, 0, .stopObject⟩ ∈ s.net),
      (step ⟨[3], [1, 2], 2⟩ s (.deliver ⟨2, 0, .stopObject⟩)).isSome)) = some (.waiting, true, false) := by decide +kernel

/-- The shutdown cannot go on for ever: from any state a run of shutdown steps is bounded; a shutdown without other traffic
takes at most five steps per worker, three per monitor and two. -/
theorem C50_bounded (c : Cfg) (hc : Roles c) (hne : c.workers ≠ []) (acts : List Act)
    (ha : ∀ a ∈ acts, a = .cancelNext ∨ (∃ w, a = .finished w) ∨ ∃ m, a = .deliver m) (s : State)
    (hr : run c State.init (.shutdown :: acts) = some s) : acts.length ≤ 5 * c.workers.length + 3 * c.monitors.length + 2 := by
  have hc' := valid_of_roles hc hne
  simp only [run, Option.bind_eq_some_iff] at hr
  obtain ⟨t, ht, hr⟩ := hr
  have h := inv_step hc' (inv_init hc') .shutdown (by simp) ht
  have := measure_run hc' h acts (by
    intro a hm
    rcases ha a hm with rfl | ⟨w, rfl⟩ | ⟨m, rfl⟩ <;> rfl) hr
  simp only [step, State.init, Option.some.injEq] at ht
  subst ht
  have hW : ∀ l : List Nat, (l.map fun _ => (Phase.running).weight).sum = 3 * l.length := by
    intro l
    induction l with
    | nil => rfl
    | cons a l ih =>
      rw [List.map_cons, List.sum_cons, ih, List.length_cons]
      simp only [Phase.weight]
      omega
  simp only [Verif.Shutdown.measure, Root.weight, hW, List.length_nil, List.countP_nil] at this
  omega

-- a complete shutdown of two workers and two monitors
example : (run ⟨[3, 4], [1, 2], 1⟩ State.init
    [.shutdown, .cancelNext, .deliver ⟨0, 3, .cancel⟩, .cancelNext, .finished 3, .cancelNext, .deliver ⟨3, 1, .ready⟩,
      .deliver ⟨0, 4, .cancel⟩, .finished 4, .deliver ⟨4, 1, .ready⟩, .deliver ⟨1, 4, .stop⟩, .deliver ⟨1, 0, .stopObject⟩,
      .deliver ⟨1, 2, .stop⟩, .deliver ⟨1, 3, .stop⟩]).map (fun s => s.root == .done && s.net.isEmpty) = some true := by
  decide +kernel

/-! ### C51 -/

/-- **C51** as stated: however often `shutdown` is called, every worker gets at most one stop request. -/
def C51_full : Prop := ∀ (c : Cfg), Roles c → ∀ (acts : List Act) (s : State), run c State.init acts = some s →
  ∀ w, s.cancelled.count w ≤ 1

/-- A shutdown interrupted by a signal and repeated at exit. -/
def exInterrupted : List Act :=
  [.shutdown, .cancelNext, .interrupt, .shutdown, .cancelNext, .cancelNext, .cancelNext, .deliver ⟨0, 2, .cancel⟩, .finished 2,
    .deliver ⟨0, 2, .cancel⟩, .finished 2, .deliver ⟨2, 1, .ready⟩, .deliver ⟨2, 1, .ready⟩, .deliver ⟨1, 3, .stop⟩]

/-- The code violates C51: the flag is set only at the end, so after an interrupted call the stop requests are sent again. -/
theorem C51_violated : ¬ C51_full := by
  intro h
  obtain ⟨s, hr, hs⟩ := Option.map_eq_some_iff.1
    (show (run ⟨[2, 3], [1], 1⟩ State.init exInterrupted).map (fun s => s.cancelled.count 2) = some 2 by decide +kernel)
  have := h _ ⟨by decide, by decide⟩ _ s hr 2
  omega

/-- Consequence: the monitor counts a worker twice, and another worker that is not ready dies of the stop message. -/
theorem C51_crash_violated : ∃ (c : Cfg) (acts : List Act) (s : State), Roles c ∧ run c State.init acts = some s ∧
    s.worker 3 = .crashed := by
  obtain ⟨s, hr, hs⟩ := Option.map_eq_some_iff.1
    (show (run ⟨[2, 3], [1], 1⟩ State.init exInterrupted).map (fun s => s.worker 3) = some .crashed by decide +kernel)
  exact ⟨_, _, s, ⟨by decide, by decide⟩, hr, hs⟩

private theorem deliver_key {c : Cfg} {s t : State} {m : Msg} (ht : step c s (.deliver m) = some t) :
    (t.root = s.root ∨ (s.root = .waiting ∧ t.root = .done)) ∧ t.cancelled = s.cancelled := by
  simp only [step] at ht
  split at ht
  · split at ht
    · simp only [recvRoot] at ht
      split at ht
      · rename_i hg
        simp only [Option.some.injEq] at ht; subst ht
        exact ⟨Or.inr ⟨hg.1, rfl⟩, rfl⟩
      · simp at ht
    · split at ht
      · simp only [recvMonitor] at ht
        split at ht
        · cases hk : m.kind <;> rw [hk] at ht
          case ready =>
            simp only at ht
            split at ht <;> (simp only [Option.some.injEq] at ht; subst ht; exact ⟨Or.inl rfl, rfl⟩)
          all_goals simp at ht
          all_goals (subst ht; exact ⟨Or.inl rfl, rfl⟩)
        · simp at ht
      · simp only [recvWorker] at ht
        split at ht
        all_goals simp at ht
        all_goals (subst ht; exact ⟨Or.inl rfl, rfl⟩)
  · simp at ht

theorem cancelled_inv {c : Cfg} (acts : List Act) (ha : Act.interrupt ∉ acts) (s s' : State)
    (h : match s.root with
      | .idle => s.cancelled = []
      | .sending rest => s.cancelled ++ rest = c.workers
      | _ => s.cancelled = c.workers)
    (hr : run c s acts = some s') :
    match s'.root with
      | .idle => s'.cancelled = []
      | .sending rest => s'.cancelled ++ rest = c.workers
      | _ => s'.cancelled = c.workers := by
  induction acts generalizing s with
  | nil => simp only [run, Option.some.injEq] at hr; subst hr; exact h
  | cons a l ih =>
    simp only [run, Option.bind_eq_some_iff] at hr
    obtain ⟨t, ht, hr⟩ := hr
    simp only [List.mem_cons, not_or] at ha
    refine ih ha.2 t ?_ hr
    cases a with
    | interrupt => exact absurd rfl ha.1
    | shutdown =>
      simp only [step] at ht
      split at ht
      · rename_i hi
        simp only [Option.some.injEq] at ht
        subst ht
        rw [hi] at h
        simp only at h
        simp [h]
      · simp only [Option.some.injEq] at ht; subst ht; exact h
      · simp at ht
    | cancelNext =>
      simp only [step] at ht
      split at ht
      · rename_i hi
        simp only [Option.some.injEq] at ht
        subst ht
        rw [hi] at h
        simpa using h
      · rename_i hi
        simp only [Option.some.injEq] at ht
        subst ht
        rw [hi] at h
        simpa using h
      · simp at ht
    | send src dst y =>
      simp only [step] at ht
      split at ht
      · simp only [Option.some.injEq] at ht; subst ht; exact h
      · simp at ht
    | coroutine w y =>
      simp only [step] at ht
      split at ht
      · simp only [Option.some.injEq] at ht; subst ht; exact h
      · simp at ht
    | finished w =>
      simp only [step] at ht
      split at ht
      · simp only [Option.some.injEq] at ht; subst ht; exact h
      · simp at ht
    | deliver m =>
      have key := deliver_key ht
      rcases key with ⟨h1 | ⟨h1, h2⟩, h3⟩
      · rw [h1, h3]; exact h
      · rw [h1] at h
        simp only at h
        rw [h2, h3]
        exact h

/-- The part of C51 that holds: if no call is interrupted, then in every history every worker gets at most one stop request,
and a call after a completed one changes nothing. Missing: calls interrupted by a signal, for which it is false. -/
theorem C51_once_partial (c : Cfg) (hc : Roles c) (acts : List Act) (ha : Act.interrupt ∉ acts) (s : State)
    (hr : run c State.init acts = some s) :
    (∀ w, s.cancelled.count w ≤ 1) ∧ (s.root = .done → s.cancelled = c.workers ∧ step c s .shutdown = some s) := by
  have h := cancelled_inv (c := c) acts ha State.init s rfl hr
  have hn : c.workers.Nodup := by
    have := hc.1
    simp only [List.nodup_cons, List.nodup_append] at this
    exact this.2.1
  constructor
  · intro w
    have hle := List.nodup_iff_count.1 hn w
    split at h
    · rw [h]; simp
    · rw [← h, List.count_append] at hle; omega
    · rw [h]; exact hle
  · intro hd
    rw [hd] at h
    exact ⟨h, by simp [step, hd]⟩

-- three calls after a completed shutdown
example : (run ⟨[2], [1], 1⟩ State.init
    [.shutdown, .cancelNext, .cancelNext, .deliver ⟨0, 2, .cancel⟩, .finished 2, .deliver ⟨2, 1, .ready⟩, .deliver ⟨1, 2, .stop⟩,
      .deliver ⟨1, 0, .stopObject⟩, .shutdown, .shutdown, .shutdown]).map (fun s => s.cancelled) = some [2] := by
  decide +kernel

/-- The stop requests sent so far, with at most `k` interrupted calls. -/
private def Calls (c : Cfg) (k : Nat) (s : State) : Prop :=
  ∃ ps : List (List Nat), ps.length ≤ k ∧ (∀ p ∈ ps, p <+: c.workers) ∧
    match s.root with
    | .idle => s.cancelled = ps.flatten
    | .sending rest => ∃ p, s.cancelled = ps.flatten ++ p ∧ p ++ rest = c.workers
    | _ => s.cancelled = ps.flatten ++ c.workers

private theorem calls_root {c : Cfg} {k : Nat} {s t : State} (h : Calls c k s) (h1 : t.root = s.root) (h2 : t.cancelled = s.cancelled) :
    Calls c k t := by
  unfold Calls
  rw [h1, h2]
  exact h

private theorem calls_run {c : Cfg} : ∀ (acts : List Act) {k : Nat} {s s' : State}, Calls c k s → run c s acts = some s' →
    Calls c (k + acts.count .interrupt) s'
  | [], k, s, s', h, hr => by
      simp only [run, Option.some.injEq] at hr
      subst hr
      simpa using h
  | a :: l, k, s, s', h, hr => by
      simp only [run, Option.bind_eq_some_iff] at hr
      obtain ⟨t, ht, hr⟩ := hr
      by_cases hi : a = .interrupt
      · subst hi
        have : Calls c (k + 1) t := by
          obtain ⟨ps, p1, p2, p3⟩ := h
          simp only [step] at ht
          split at ht
          · rename_i rest hs
            simp only [Option.some.injEq] at ht
            subst ht
            rw [hs] at p3
            obtain ⟨p, q1, q2⟩ := p3
            refine ⟨ps ++ [p], by simp; omega, fun q hq => ?_, by simp [q1]⟩
            rcases List.mem_append.1 hq with hq | hq
            · exact p2 q hq
            · rw [List.mem_singleton.1 hq]; exact ⟨rest, q2⟩
          · rename_i hs
            simp only [Option.some.injEq] at ht
            subst ht
            rw [hs] at p3
            refine ⟨ps ++ [c.workers], by simp; omega, fun q hq => ?_, by simpa using p3⟩
            rcases List.mem_append.1 hq with hq | hq
            · exact p2 q hq
            · rw [List.mem_singleton.1 hq]; exact List.prefix_refl _
          · simp at ht
        have e := calls_run l this hr
        rw [List.count_cons_self]
        rwa [show k + (l.count .interrupt + 1) = k + 1 + l.count .interrupt by omega]
      · rw [List.count_cons_of_ne hi]
        refine calls_run l ?_ hr
        cases a with
        | interrupt => exact absurd rfl hi
        | shutdown =>
          simp only [step] at ht
          split at ht
          · rename_i hs
            simp only [Option.some.injEq] at ht
            subst ht
            obtain ⟨ps, p1, p2, p3⟩ := h
            rw [hs] at p3
            exact ⟨ps, p1, p2, [], by simpa using p3, rfl⟩
          · simp only [Option.some.injEq] at ht; subst ht; exact h
          · simp at ht
        | cancelNext =>
          obtain ⟨ps, p1, p2, p3⟩ := h
          simp only [step] at ht
          split at ht
          · rename_i w rest hs
            simp only [Option.some.injEq] at ht
            subst ht
            rw [hs] at p3
            obtain ⟨p, q1, q2⟩ := p3
            exact ⟨ps, p1, p2, p ++ [w], by simp [q1], by simpa using q2⟩
          · rename_i hs
            simp only [Option.some.injEq] at ht
            subst ht
            rw [hs] at p3
            obtain ⟨p, q1, q2⟩ := p3
            refine ⟨ps, p1, p2, ?_⟩
            simp only [List.append_nil] at q2
            rw [← q2]
            exact q1
          · simp at ht
        | send src dst y =>
          simp only [step] at ht
          split at ht
          · simp only [Option.some.injEq] at ht; subst ht; exact calls_root h rfl rfl
          · simp at ht
        | coroutine w y =>
          simp only [step] at ht
          split at ht
          · simp only [Option.some.injEq] at ht; subst ht; exact calls_root h rfl rfl
          · simp at ht
        | finished w =>
          simp only [step] at ht
          split at ht
          · simp only [Option.some.injEq] at ht; subst ht; exact calls_root h rfl rfl
          · simp at ht
        | deliver m =>
          obtain ⟨h1 | ⟨h1, h2⟩, h3⟩ := deliver_key ht
          · exact calls_root h h1 h3
          · obtain ⟨ps, p1, p2, p3⟩ := h
            rw [h1] at p3
            refine ⟨ps, p1, p2, ?_⟩
            rw [h2, h3]
            exact p3

/-- What holds of C51 with signals: every interrupted call has sent stop requests to the first of the workers, and a completed call has sent one to each;
so a worker gets at most one request more than there were signals. Missing: at most one (`C51_violated`). -/
theorem C51_bound_partial (c : Cfg) (hc : Roles c) (acts : List Act) (s : State) (hr : run c State.init acts = some s) :
    (∃ ps : List (List Nat), ps.length ≤ acts.count .interrupt ∧ (∀ p ∈ ps, p <+: c.workers) ∧
      ∃ p, p <+: c.workers ∧ s.cancelled = ps.flatten ++ p ∧ (s.root = .done → p = c.workers)) ∧
    ∀ w, s.cancelled.count w ≤ acts.count .interrupt + 1 := by
  have h : Calls c (0 + acts.count .interrupt) s := calls_run acts (k := 0) (s := State.init) ⟨[], by simp, by simp, rfl⟩ hr
  rw [Nat.zero_add] at h
  have hn : c.workers.Nodup := by
    have := hc.1
    simp only [List.nodup_cons, List.nodup_append] at this
    exact this.2.1
  have one : ∀ p, p <+: c.workers → ∀ w, p.count w ≤ 1 := fun p hp w => List.nodup_iff_count.1 (hn.sublist hp.sublist) w
  have many : ∀ (ps : List (List Nat)), (∀ p ∈ ps, p <+: c.workers) → ∀ w, ps.flatten.count w ≤ ps.length := by
    intro ps hp w
    induction ps with
    | nil => simp
    | cons p ps ih =>
      rw [List.flatten_cons, List.count_append, List.length_cons]
      have := one p (hp p List.mem_cons_self) w
      have := ih fun q hq => hp q (List.mem_cons_of_mem _ hq)
      omega
  have first : ∃ ps : List (List Nat), ps.length ≤ acts.count .interrupt ∧ (∀ p ∈ ps, p <+: c.workers) ∧
      ∃ p, p <+: c.workers ∧ s.cancelled = ps.flatten ++ p ∧ (s.root = .done → p = c.workers) := by
    obtain ⟨ps, p1, p2, p3⟩ := h
    refine ⟨ps, p1, p2, ?_⟩
    cases hs : s.root with
    | idle => rw [hs] at p3; exact ⟨[], List.nil_prefix, by simpa using p3, by simp⟩
    | sending rest => rw [hs] at p3; obtain ⟨p, q1, q2⟩ := p3; exact ⟨p, ⟨rest, q2⟩, q1, by simp⟩
    | waiting => rw [hs] at p3; exact ⟨_, List.prefix_refl _, p3, fun _ => rfl⟩
    | done => rw [hs] at p3; exact ⟨_, List.prefix_refl _, p3, fun _ => rfl⟩
  refine ⟨first, fun w => ?_⟩
  obtain ⟨ps, p1, p2, p, p3, p4, -⟩ := first
  rw [p4, List.count_append]
  have := one p p3 w
  have := many ps p2 w
  omega

/-- Two signals, one after the first worker and one while the root waits: worker 2 gets three requests, worker 3 two. -/
example : (run ⟨[2, 3], [1], 1⟩ State.init [.shutdown, .cancelNext, .interrupt, .shutdown, .cancelNext, .cancelNext, .cancelNext, .interrupt,
    .shutdown, .cancelNext, .cancelNext, .cancelNext]).map (fun s => (s.cancelled, s.root)) = some ([2, 2, 3, 2, 3], .waiting) := by decide +kernel

end Verif.Props
