import Verif.Model.Shutdown
import Mathlib.Data.List.Perm.Subperm

/-! Invariant of the shutdown protocol. -/
namespace Verif.Shutdown

/-- Roles do not overlap and the root's monitor is a monitor. -/
structure Valid (c : Cfg) : Prop where
  nodupW : c.workers.Nodup
  nodupM : c.monitors.Nodup
  disjoint : ∀ w ∈ c.workers, w ∉ c.monitors
  rootW : 0 ∉ c.workers
  rootM : 0 ∉ c.monitors
  mon : c.rootMonitor ∈ c.monitors
  some : c.workers ≠ []

/-- The root has sent `CANCEL` to worker `w`. -/
def Cancelled (s : State) (w : Nat) : Prop :=
  match s.root with
  | .idle => False
  | .sending rest => w ∉ rest
  | _ => True

/-- Worker `w` has posted its ready signal. -/
def Posted (s : State) (w : Nat) : Prop := s.worker w = .ready ∨ s.worker w = .left

/-- Message `m` of the protocol is under way. -/
def Under (c : Cfg) (s : State) (m : Msg) : Prop :=
  match m.kind with
  | .cancel => m.src = 0 ∧ m.dst ∈ c.workers ∧ Cancelled s m.dst ∧ s.worker m.dst = .running
  | .ready => m.dst = c.rootMonitor ∧ m.src ∈ c.workers ∧ Posted s m.src ∧ m.src ∉ s.readyAt c.rootMonitor
  | .stop => m.src = c.rootMonitor ∧ s.monitor c.rootMonitor = .left ∧ m.dst ≠ c.rootMonitor ∧
      ((m.dst ∈ c.workers ∧ s.worker m.dst = .ready) ∨ (m.dst ∈ c.monitors ∧ s.monitor m.dst = .running))
  | .stopObject => m.src = c.rootMonitor ∧ m.dst = 0 ∧ s.monitor c.rootMonitor = .left ∧ s.root ≠ .done
  | .data _ => False

/-- The invariant: which protocol messages are under way is determined by the states of the processes. -/
structure Inv (c : Cfg) (s : State) : Prop where
  once : ∀ m, (∀ y, m.kind ≠ .data y) → s.net.count m ≤ 1
  mem : ∀ m, (∀ y, m.kind ≠ .data y) → (m ∈ s.net ↔ Under c s m)
  canc : ∀ w ∈ c.workers, s.worker w ≠ .running → Cancelled s w
  phaseW : ∀ w, s.worker w ≠ .crashed
  phaseM : ∀ m, s.monitor m = .running ∨ s.monitor m = .left
  readyNodup : (s.readyAt c.rootMonitor).Nodup
  readyMem : ∀ w ∈ s.readyAt c.rootMonitor, w ∈ c.workers ∧ Posted s w
  stopped : s.monitor c.rootMonitor = .left ↔ (s.readyAt c.rootMonitor).length = c.workers.length
  leftW : ∀ w ∈ c.workers, s.worker w = .left → s.monitor c.rootMonitor = .left
  leftM : ∀ m ∈ c.monitors, s.monitor m = .left → s.monitor c.rootMonitor = .left
  doneR : s.root = .done → s.monitor c.rootMonitor = .left
  rest : ∀ l, s.root = .sending l → l.Nodup ∧ ∀ w ∈ l, w ∈ c.workers
  dataDst : ∀ m ∈ s.net, ∀ y, m.kind = .data y → m.dst ∈ c.workers ++ c.monitors

theorem inv_init {c : Cfg} (hc : Valid c) : Inv c State.init := by
  have hlen : 0 < c.workers.length := List.length_pos_iff.2 hc.some
  constructor <;> simp [State.init, Cancelled, Posted, Under]
  · intro m hm
    cases hk : m.kind <;> simp
  · omega

theorem mem_erase_once {l : List Msg} {m x : Msg} (h : l.count m ≤ 1) : x ∈ l.erase m ↔ x ≠ m ∧ x ∈ l := by
  by_cases hx : x = m
  · subst hx
    simp only [ne_eq, not_true_eq_false, false_and, iff_false]
    intro hm
    have h1 := List.count_pos_iff.2 hm
    rw [List.count_erase_self] at h1
    omega
  · rw [List.mem_erase_of_ne hx]; simp [hx]

theorem count_erase_le {l : List Msg} {m x : Msg} : (l.erase m).count x ≤ l.count x :=
  List.Sublist.count_le x List.erase_sublist

theorem inv_shutdown {c : Cfg} {s s' : State} (hc : Valid c) (h : Inv c s) (hs : step c s .shutdown = some s') : Inv c s' := by
  simp only [step] at hs
  split at hs
  · rename_i hi
    simp only [Option.some.injEq] at hs
    subst hs
    have hrun : ∀ w ∈ c.workers, s.worker w = .running := by
      intro w hw
      have := h.canc w hw
      simp only [Cancelled, hi] at this
      cases hw' : s.worker w <;> simp_all
    constructor
    · exact h.once
    · intro m hm
      rw [h.mem m hm]
      cases hk : m.kind <;> simp [Under, hk, Cancelled, hi, Posted]
      intro _ h1 h2
      exact absurd h1 h2
    · intro w hw hne
      exact absurd (hrun w hw) hne
    · exact h.phaseW
    · exact h.phaseM
    · exact h.readyNodup
    · exact h.readyMem
    · exact h.stopped
    · exact h.leftW
    · exact h.leftM
    · simp
    · intro l hl
      simp only [Root.sending.injEq] at hl
      subst hl
      exact ⟨hc.nodupW, fun w hw => hw⟩
    · exact h.dataDst
  · simp only [Option.some.injEq] at hs
    subst hs
    exact h
  · simp at hs

theorem inv_cancelNext {c : Cfg} {s s' : State} (h : Inv c s) (hs : step c s .cancelNext = some s') :
    Inv c s' := by
  simp only [step] at hs
  split at hs
  · rename_i w rest hr
    simp only [Option.some.injEq] at hs
    subst hs
    obtain ⟨hnd, hsub⟩ := h.rest _ hr
    have hw : w ∈ c.workers := hsub w List.mem_cons_self
    have hwr : w ∉ rest := (List.nodup_cons.1 hnd).1
    have hrunw : s.worker w = .running := by
      cases hp : s.worker w with
      | running => rfl
      | _ =>
        have := h.canc w hw (by rw [hp]; simp)
        simp [Cancelled, hr] at this
    have hnew : (⟨0, w, .cancel⟩ : Msg) ∉ s.net := by
      rw [h.mem _ (by simp)]
      simp [Under, Cancelled, hr]
    constructor
    · intro m hm
      simp only [List.count_append]
      have h1 := h.once m hm
      by_cases he : m = ⟨0, w, .cancel⟩
      · subst he
        rw [List.count_eq_zero_of_not_mem hnew]
        simp
      · rw [List.count_singleton, if_neg (by simpa using fun e => he e.symm)]
        omega
    · intro m hm
      simp only [List.mem_append, List.mem_singleton, h.mem m hm]
      cases hk : m.kind with
      | cancel =>
        obtain ⟨src, dst, kind⟩ := m
        simp only at hk
        subst hk
        simp only [Under, Cancelled, hr, Msg.mk.injEq, and_true, List.mem_cons, not_or]
        constructor
        · rintro (⟨h1, h2, ⟨-, h3⟩, h4⟩ | ⟨rfl, rfl⟩)
          · exact ⟨h1, h2, h3, h4⟩
          · exact ⟨rfl, hw, hwr, hrunw⟩
        · rintro ⟨h1, h2, h3, h4⟩
          by_cases hd : dst = w
          · exact Or.inr ⟨h1, hd⟩
          · exact Or.inl ⟨h1, h2, ⟨hd, h3⟩, h4⟩
      | data y => exact absurd hk (hm y)
      | _ => 
        have hne : m ≠ ⟨0, w, .cancel⟩ := by rintro rfl; simp at hk
        simp [Under, hk, Posted, hr, hne]
    · intro v hv hne
      have := h.canc v hv hne
      simp only [Cancelled, hr, List.mem_cons, not_or] at this
      exact this.2
    · exact h.phaseW
    · exact h.phaseM
    · exact h.readyNodup
    · exact h.readyMem
    · exact h.stopped
    · exact h.leftW
    · exact h.leftM
    · simp
    · intro l hl
      simp only [Root.sending.injEq] at hl
      subst hl
      exact ⟨(List.nodup_cons.1 hnd).2, fun v hv => hsub v (List.mem_cons_of_mem _ hv)⟩
    · intro m hm y hy
      simp only [List.mem_append, List.mem_singleton] at hm
      rcases hm with hm | rfl
      · exact h.dataDst m hm y hy
      · simp at hy
  · rename_i hr
    simp only [Option.some.injEq] at hs
    subst hs
    constructor
    · exact h.once
    · intro m hm
      rw [h.mem m hm]
      cases hk : m.kind <;> simp [Under, hk, Cancelled, hr, Posted]
    · intro w hw hne; simp [Cancelled]
    · exact h.phaseW
    · exact h.phaseM
    · exact h.readyNodup
    · exact h.readyMem
    · exact h.stopped
    · exact h.leftW
    · exact h.leftM
    · simp
    · simp
    · exact h.dataDst
  · simp at hs

/-- Adding a message of another kind. -/
theorem inv_data {c : Cfg} {s : State} (h : Inv c s) (src dst : Nat) (y : Bool) (hd : dst ∈ c.workers ++ c.monitors) :
    Inv c { s with net := s.net ++ [⟨src, dst, .data y⟩] } := by
  obtain ⟨h1, h2, h3, h4, h5, h6, h7, h8, h9, h10, h11, h12, h13⟩ := h
  refine ⟨?_, ?_, h3, h4, h5, h6, h7, h8, h9, h10, h11, h12, ?_⟩
  · intro m hm
    simp only [List.count_append]
    rw [List.count_singleton, if_neg]
    · exact h1 m hm
    · simp only [beq_iff_eq]
      rintro rfl
      exact hm y rfl
  · intro m hm
    simp only [List.mem_append, List.mem_singleton]
    have hne : m ≠ ⟨src, dst, .data y⟩ := by rintro rfl; exact hm y rfl
    simp only [hne, or_false]
    exact h2 m hm
  · intro m hm y' hy
    simp only [List.mem_append, List.mem_singleton] at hm
    rcases hm with hm | rfl
    · exact h13 m hm y' hy
    · exact hd

theorem inv_recvData {c : Cfg} {s : State} (h : Inv c s) (m : Msg) (y : Bool) (hy : m.kind = .data y) :
    Inv c { s with net := s.net.erase m } := by
  obtain ⟨h1, h2, h3, h4, h5, h6, h7, h8, h9, h10, h11, h12, h13⟩ := h
  refine ⟨?_, ?_, h3, h4, h5, h6, h7, h8, h9, h10, h11, h12, ?_⟩
  · intro x hx
    exact Nat.le_trans count_erase_le (h1 x hx)
  · intro x hx
    have hne : x ≠ m := by rintro rfl; exact hx y hy
    simp only [List.mem_erase_of_ne hne]
    exact h2 x hx
  · intro x hx
    exact h13 x (List.mem_of_mem_erase hx)

theorem stopped_all {c : Cfg} {s : State} (h : Inv c s) (hs : s.monitor c.rootMonitor = .left) (w : Nat) (hw : w ∈ c.workers) :
    w ∈ s.readyAt c.rootMonitor := by
  have hl := h.stopped.1 hs
  have hp : (s.readyAt c.rootMonitor).Perm c.workers :=
    (List.Nodup.subperm h.readyNodup fun v hv => (h.readyMem v hv).1).perm_of_length_le (by omega)
  exact hp.mem_iff.2 hw

theorem inv_finished {c : Cfg} {s s' : State} (hc : Valid c) (h : Inv c s) (w : Nat) (hs : step c s (.finished w) = some s') :
    Inv c s' := by
  simp only [step] at hs
  split at hs
  · rename_i hg
    obtain ⟨hw, hf, -⟩ := hg
    simp only [Option.some.injEq] at hs
    subst hs
    have hnr : w ∉ s.readyAt c.rootMonitor := by
      intro hm
      have := (h.readyMem w hm).2
      simp [Posted, hf] at this
    have hns : s.monitor c.rootMonitor ≠ .left := fun e => hnr (stopped_all h e w hw)
    have hnew : (⟨w, c.rootMonitor, .ready⟩ : Msg) ∉ s.net := by
      rw [h.mem _ (by simp)]
      simp [Under, Posted, hf]
    have hposted : ∀ v, v ≠ w → (Posted { s with worker := upd s.worker w .ready, net := s.net ++ [⟨w, c.rootMonitor, .ready⟩] } v ↔ Posted s v) := by
      intro v hv
      simp [Posted, upd, hv]
    constructor
    · intro m hm
      simp only [List.count_append]
      have h1 := h.once m hm
      by_cases he : m = ⟨w, c.rootMonitor, .ready⟩
      · subst he
        rw [List.count_eq_zero_of_not_mem hnew]
        simp
      · rw [List.count_singleton, if_neg (by simpa using fun e => he e.symm)]
        omega
    · intro m hm
      simp only [List.mem_append, List.mem_singleton, h.mem m hm]
      obtain ⟨src, dst, kind⟩ := m
      cases kind with
      | data y => exact absurd rfl (hm y)
      | cancel =>
        by_cases hd : dst = w
        · subst hd; simp [Under, upd, hf]
        · simp [Under, upd, hd, Cancelled]
      | ready =>
        by_cases hd : src = w
        · subst hd
          simp [Under, Posted, upd, hf, hnr, hw]
        · simp [Under, Posted, upd, hd]
      | stop =>
        simp [Under, hns]
      | stopObject => simp [Under]
    · intro v hv hne
      by_cases hvw : v = w
      · subst hvw
        exact h.canc v hv (by rw [hf]; simp)
      · exact h.canc v hv (by simpa [upd, hvw] using hne)
    · intro v
      simp only [upd]
      split
      · simp
      · exact h.phaseW v
    · exact h.phaseM
    · exact h.readyNodup
    · intro v hv
      have := h.readyMem v hv
      by_cases hvw : v = w
      · subst hvw; exact absurd hv hnr
      · exact ⟨this.1, (hposted v hvw).2 this.2⟩
    · exact h.stopped
    · intro v hv hl
      simp only [upd] at hl
      split at hl
      · simp at hl
      · exact h.leftW v hv hl
    · exact h.leftM
    · exact h.doneR
    · exact h.rest
    · intro m hm y hy
      simp only [List.mem_append, List.mem_singleton] at hm
      rcases hm with hm | rfl
      · exact h.dataDst m hm y hy
      · simp at hy
  · simp at hs

theorem farewell_mem {c : Cfg} {r : Nat} {m : Msg} :
    m ∈ farewell c r ↔ (m.kind = .stop ∧ m.src = r ∧ m.dst ∈ c.workers ++ c.monitors ∧ m.dst ≠ r) ∨ m = ⟨r, 0, .stopObject⟩ := by
  obtain ⟨src, dst, kind⟩ := m
  simp only [farewell, List.mem_append, List.mem_map, List.mem_filter, List.mem_singleton, Msg.mk.injEq]
  constructor
  · rintro (⟨a, ⟨h1, h2⟩, h3, h4, h5⟩ | h1)
    · refine Or.inl ⟨h5.symm, h3.symm, ?_, ?_⟩
      · rw [← h4]; exact h1
      · rw [← h4]; simpa using h2
    · exact Or.inr h1
  · rintro (⟨h1, h2, h3, h4⟩ | h1)
    · exact Or.inl ⟨dst, ⟨h3, by simpa using h4⟩, h2.symm, rfl, h1.symm⟩
    · exact Or.inr h1

theorem farewell_count {c : Cfg} (hc : Valid c) (r : Nat) (m : Msg) : (farewell c r).count m ≤ 1 := by
  have hn : (farewell c r).Nodup := by
    unfold farewell
    rw [List.nodup_append]
    refine ⟨?_, by simp, ?_⟩
    · refine List.Pairwise.map _ (R := (· ≠ ·)) ?_ ?_
      · intro a b hab he
        simp only [Msg.mk.injEq, true_and, and_true] at he
        exact hab he
      · refine List.Pairwise.filter _ ?_
        exact List.nodup_append.2 ⟨hc.nodupW, hc.nodupM, fun a ha b hb e => hc.disjoint a ha (e ▸ hb)⟩
    · intro a ha b hb
      simp only [List.mem_map, List.mem_filter, List.mem_singleton] at ha hb
      obtain ⟨x, -, rfl⟩ := ha
      subst hb
      simp
  exact List.nodup_iff_count.1 hn m

theorem inv_recvWorker {c : Cfg} {s s' : State} (hc : Valid c) (h : Inv c s) (m : Msg) (hm : m ∈ s.net) (h0 : m.dst ≠ 0)
    (hmon : m.dst ∉ c.monitors) (hs : recvWorker s m = some s') : Inv c s' := by
  obtain ⟨src, dst, kind⟩ := m
  simp only at h0 hmon
  simp only [recvWorker] at hs
  cases kind with
  | data y =>
    have : s' = { s with net := s.net.erase ⟨src, dst, .data y⟩ } := by
      revert hs
      cases s.worker dst <;> simp <;> exact fun e => e.symm
    rw [this]
    exact inv_recvData h _ y rfl
  | cancel =>
    have hu := (h.mem _ (by simp)).1 hm
    obtain ⟨h1, h2, h3, h4⟩ := hu
    simp only at h1 h2 h3 h4
    subst h1
    rw [h4] at hs
    simp only [Option.some.injEq] at hs
    subst hs
    have honce := h.once ⟨0, dst, .cancel⟩ (by simp)
    have hnr : dst ∉ s.readyAt c.rootMonitor := by
      intro hx
      have := (h.readyMem dst hx).2
      simp [Posted, h4] at this
    constructor
    · intro x hx; exact Nat.le_trans count_erase_le (h.once x hx)
    · intro x hx
      simp only [mem_erase_once honce, h.mem x hx]
      obtain ⟨src', dst', kind'⟩ := x
      cases kind' with
      | data y => exact absurd rfl (hx y)
      | cancel =>
        by_cases hd : dst' = dst
        · subst hd
          simp only [Under, upd, ne_eq, Msg.mk.injEq, and_true, if_true]
          constructor
          · rintro ⟨ha, hb, -⟩; exact absurd hb ha
          · rintro ⟨-, -, -, hb⟩; simp at hb
        · simp [Under, upd, hd, Cancelled]
      | ready =>
        by_cases hd : src' = dst
        · subst hd; simp [Under, Posted, upd, h4]
        · simp [Under, Posted, upd, hd]
      | stop =>
        by_cases hd : dst' = dst
        · subst hd; simp [Under, upd, h4]
        · simp [Under, upd, hd]
      | stopObject => simp [Under]
    · intro v hv hne
      by_cases hvw : v = dst
      · subst hvw; exact h3
      · exact h.canc v hv (by simpa [upd, hvw] using hne)
    · intro v
      simp only [upd]
      split
      · simp
      · exact h.phaseW v
    · exact h.phaseM
    · exact h.readyNodup
    · intro v hv
      have := h.readyMem v hv
      have hvw : v ≠ dst := fun e => hnr (e ▸ hv)
      exact ⟨this.1, by simpa [Posted, upd, hvw] using this.2⟩
    · exact h.stopped
    · intro v hv hl
      simp only [upd] at hl
      split at hl
      · simp at hl
      · exact h.leftW v hv hl
    · exact h.leftM
    · exact h.doneR
    · exact h.rest
    · intro x hx; exact h.dataDst x (List.mem_of_mem_erase hx)
  | ready =>
    have hu := (h.mem _ (by simp)).1 hm
    have hd : dst = c.rootMonitor := hu.1
    exact absurd (hd ▸ hc.mon) hmon
  | stop =>
    have hu := (h.mem _ (by simp)).1 hm
    obtain ⟨h1, h2, h3, h4⟩ := hu
    simp only at h1 h3 h4
    rcases h4 with ⟨h4, h5⟩ | ⟨h4, -⟩
    · rw [h5] at hs
      simp only [Option.some.injEq] at hs
      subst hs
      have honce := h.once ⟨src, dst, .stop⟩ (by simp)
      constructor
      · intro x hx; exact Nat.le_trans count_erase_le (h.once x hx)
      · intro x hx
        simp only [mem_erase_once honce, h.mem x hx]
        obtain ⟨src', dst', kind'⟩ := x
        cases kind' with
        | data y => exact absurd rfl (hx y)
        | cancel =>
          by_cases hd : dst' = dst
          · subst hd; simp [Under, upd, h5]
          · simp [Under, upd, hd, Cancelled]
        | ready =>
          by_cases hd : src' = dst
          · subst hd; simp [Under, Posted, upd, h5]
          · simp [Under, Posted, upd, hd]
        | stop =>
          by_cases hd : dst' = dst
          · subst hd
            simp only [Under, upd, ne_eq, Msg.mk.injEq, and_true, if_true]
            constructor
            · rintro ⟨ha, hb, -⟩; exact absurd (hb.trans h1.symm) ha
            · rintro ⟨-, -, -, ⟨-, hb⟩ | ⟨hb, -⟩⟩
              · simp at hb
              · exact absurd hb hmon
          · simp [Under, upd, hd]
        | stopObject => simp [Under]
      · intro v hv hne
        by_cases hvw : v = dst
        · subst hvw; exact h.canc v hv (by rw [h5]; simp)
        · exact h.canc v hv (by simpa [upd, hvw] using hne)
      · intro v
        simp only [upd]
        split
        · simp
        · exact h.phaseW v
      · exact h.phaseM
      · exact h.readyNodup
      · intro v hv
        have := h.readyMem v hv
        refine ⟨this.1, ?_⟩
        by_cases hvw : v = dst
        · simp [Posted, upd, hvw]
        · simpa [Posted, upd, hvw] using this.2
      · exact h.stopped
      · intro v hv _; exact h2
      · exact h.leftM
      · exact h.doneR
      · exact h.rest
      · intro x hx; exact h.dataDst x (List.mem_of_mem_erase hx)
    · exact absurd h4 hmon
  | stopObject =>
    have hu := (h.mem _ (by simp)).1 hm
    exact absurd hu.2.1 h0

theorem inv_recvRoot {c : Cfg} {s s' : State} (h : Inv c s) (m : Msg) (hm : m ∈ s.net) (hs : recvRoot s m = some s') :
    Inv c s' := by
  simp only [recvRoot] at hs
  split at hs
  · rename_i hg
    obtain ⟨hw, hk, hsrc⟩ := hg
    simp only [Option.some.injEq] at hs
    subst hs
    obtain ⟨src, dst, kind⟩ := m
    simp only at hk hsrc
    subst hk
    have hu := (h.mem _ (by simp)).1 hm
    obtain ⟨h1, h2, h3, h4⟩ := hu
    simp only at h1 h2
    have honce := h.once ⟨src, dst, .stopObject⟩ (by simp)
    constructor
    · intro x hx; exact Nat.le_trans count_erase_le (h.once x hx)
    · intro x hx
      simp only [mem_erase_once honce, h.mem x hx]
      obtain ⟨src', dst', kind'⟩ := x
      cases kind' with
      | data y => exact absurd rfl (hx y)
      | cancel => simp [Under, Cancelled, hw]
      | ready => simp [Under, Posted]
      | stop => simp [Under]
      | stopObject =>
        simp only [Under, ne_eq, Msg.mk.injEq, and_true, not_true_eq_false, and_false, iff_false]
        rintro ⟨ha, hb, hd, -⟩
        exact ha ⟨hb.trans h1.symm, hd.trans h2.symm⟩
    · intro v hv hne; simp [Cancelled]
    · exact h.phaseW
    · exact h.phaseM
    · exact h.readyNodup
    · exact h.readyMem
    · exact h.stopped
    · exact h.leftW
    · exact h.leftM
    · intro _; exact h3
    · simp
    · intro x hx; exact h.dataDst x (List.mem_of_mem_erase hx)
  · simp at hs

theorem inv_recvMonitor {c : Cfg} {s s' : State} (hc : Valid c) (h : Inv c s) (m : Msg) (hm : m ∈ s.net) (h0 : m.dst ≠ 0)
    (hmon : m.dst ∈ c.monitors) (hs : recvMonitor c s m = some s') : Inv c s' := by
  obtain ⟨src, dst, kind⟩ := m
  simp only at h0 hmon
  simp only [recvMonitor] at hs
  split at hs
  swap
  · simp at hs
  rename_i hrun
  cases kind with
  | data y =>
    simp only [Option.some.injEq] at hs
    subst hs
    exact inv_recvData h _ y rfl
  | cancel =>
    have hu := (h.mem _ (by simp)).1 hm
    exact absurd hmon (hc.disjoint _ hu.2.1)
  | stopObject => simp at hs
  | stop =>
    simp only [Option.some.injEq] at hs
    subst hs
    have hu := (h.mem _ (by simp)).1 hm
    obtain ⟨h1, h2, h3, -⟩ := hu
    simp only at h1 h3
    have h3' : ¬ c.rootMonitor = dst := fun e => h3 e.symm
    have hup : upd s.monitor dst .left c.rootMonitor = s.monitor c.rootMonitor := by simp [upd, h3']
    have honce := h.once ⟨src, dst, .stop⟩ (by simp)
    constructor
    · intro x hx; exact Nat.le_trans count_erase_le (h.once x hx)
    · intro x hx
      simp only [mem_erase_once honce, h.mem x hx]
      obtain ⟨src', dst', kind'⟩ := x
      cases kind' with
      | data y => exact absurd rfl (hx y)
      | cancel => simp [Under, Cancelled]
      | ready => simp [Under, Posted]
      | stop =>
        by_cases hd : dst' = dst
        · subst hd
          simp only [Under, hup, ne_eq, Msg.mk.injEq, and_true]
          constructor
          · rintro ⟨ha, hb, -⟩; exact absurd (hb.trans h1.symm) ha
          · rintro ⟨-, -, -, ⟨hb, -⟩ | ⟨-, hb⟩⟩
            · exact absurd hmon (hc.disjoint _ hb)
            · simp [upd] at hb
        · simp only [Under, hup]
          simp [upd, hd]
      | stopObject => simp only [Under, hup]; simp
    · exact h.canc
    · exact h.phaseW
    · intro v
      simp only [upd]
      split
      · simp
      · exact h.phaseM v
    · exact h.readyNodup
    · exact h.readyMem
    · simp only [hup]; exact h.stopped
    · intro v hv hl; simp only [hup]; exact h2
    · intro v hv hl; simp only [hup]; exact h2
    · intro _; simp only [hup]; exact h2
    · exact h.rest
    · intro x hx; exact h.dataDst x (List.mem_of_mem_erase hx)
  | ready =>
    have hu := (h.mem _ (by simp)).1 hm
    obtain ⟨h1, h2, h3, h4⟩ := hu
    simp only at h1 h2 h3 h4
    subst h1
    have honce := h.once ⟨src, c.rootMonitor, .ready⟩ (by simp)
    have hnd : (s.readyAt c.rootMonitor ++ [src]).Nodup := by
      rw [List.nodup_append]
      exact ⟨h.readyNodup, by simp, fun a ha b hb e => h4 (by simp only [List.mem_singleton] at hb; rw [← hb, ← e]; exact ha)⟩
    have hmemr : ∀ w ∈ s.readyAt c.rootMonitor ++ [src], w ∈ c.workers ∧ Posted s w := by
      intro w hw
      simp only [List.mem_append, List.mem_singleton] at hw
      rcases hw with hw | rfl
      · exact h.readyMem w hw
      · exact ⟨h2, h3⟩
    have hup : upd s.readyAt c.rootMonitor (s.readyAt c.rootMonitor ++ [src]) c.rootMonitor = s.readyAt c.rootMonitor ++ [src] := by
      simp [upd]
    have hnl : s.monitor c.rootMonitor ≠ .left := by rw [hrun]; simp
    simp only at hs
    split at hs
    · rename_i hlen
      simp only [Option.some.injEq] at hs
      subst hs
      have hall : ∀ w ∈ c.workers, w ∈ s.readyAt c.rootMonitor ++ [src] := by
        have hp : (s.readyAt c.rootMonitor ++ [src]).Perm c.workers :=
          (List.Nodup.subperm hnd fun v hv => (hmemr v hv).1).perm_of_length_le (by omega)
        exact fun w hw => hp.mem_iff.2 hw
      have hready : ∀ w ∈ c.workers, s.worker w = .ready := by
        intro w hw
        rcases (hmemr w (hall w hw)).2 with hp | hp
        · exact hp
        · exact absurd (h.leftW w hw hp) hnl
      have hmr : ∀ r ∈ c.monitors, s.monitor r = .running := by
        intro r hr
        rcases h.phaseM r with hp | hp
        · exact hp
        · exact absurd (h.leftM r hr hp) hnl
      have hupm : upd s.monitor c.rootMonitor .left c.rootMonitor = .left := by simp [upd]
      have hnostop : ∀ x ∈ s.net, x.kind ≠ .stop ∧ x.kind ≠ .stopObject := by
        intro x hx
        constructor
        · intro hk
          have := (h.mem x (by rw [hk]; simp)).1 hx
          simp only [Under, hk] at this
          exact hnl this.2.1
        · intro hk
          have := (h.mem x (by rw [hk]; simp)).1 hx
          simp only [Under, hk] at this
          exact hnl this.2.2.1
      constructor
      · intro x hx
        simp only [List.count_append]
        by_cases hxf : x ∈ farewell c c.rootMonitor
        · have hxn : x ∉ s.net.erase ⟨src, c.rootMonitor, .ready⟩ := by
            intro he
            have := hnostop x (List.mem_of_mem_erase he)
            rcases farewell_mem.1 hxf with hf | hf
            · exact this.1 hf.1
            · rw [hf] at this; exact this.2 rfl
          rw [List.count_eq_zero_of_not_mem hxn]
          have := farewell_count hc c.rootMonitor x
          omega
        · rw [List.count_eq_zero_of_not_mem hxf]
          exact Nat.le_trans count_erase_le (h.once x hx)
      · intro x hx
        simp only [List.mem_append, mem_erase_once honce, h.mem x hx, farewell_mem]
        obtain ⟨src', dst', kind'⟩ := x
        cases kind' with
        | data y => exact absurd rfl (hx y)
        | cancel =>
          simp [Under, Cancelled]
        | ready =>
          simp only [Under, hup, Posted]
          simp only [List.mem_append, List.mem_singleton, not_or]
          constructor
          · rintro (⟨ha, hb, hd, he, hf⟩ | ⟨hk, -⟩ | hk)
            · exact ⟨hb, hd, he, hf, fun e => ha (by rw [e, hb])⟩
            · simp at hk
            · simp at hk
          · rintro ⟨hb, hd, he, hf, hg⟩
            exact Or.inl ⟨by simp [hg], hb, hd, he, hf⟩
        | stop =>
          simp only [Under, hupm, hnl, false_and, and_false, false_or, true_and, ne_eq, Msg.mk.injEq, reduceCtorEq, or_false]
          constructor
          · rintro ⟨ha, hb, hd⟩
            refine ⟨ha, hd, ?_⟩
            rcases hb with hb | hb
            · exact Or.inl ⟨hb, hready _ hb⟩
            · exact Or.inr ⟨hb, by simp [upd, hd, hmr _ hb]⟩
          · rintro ⟨ha, hd, hb⟩
            refine ⟨ha, ?_, hd⟩
            rcases hb with ⟨hb, -⟩ | ⟨hb, -⟩
            · exact Or.inl hb
            · exact Or.inr hb
        | stopObject =>
          have hnd' : s.root ≠ .done := fun e => hnl (h.doneR e)
          simp only [Under, hupm, hnl, false_and, and_false, false_or, ne_eq, Msg.mk.injEq, reduceCtorEq,
            hnd', not_false_eq_true, and_true]
      · exact h.canc
      · exact h.phaseW
      · intro v
        simp only [upd]
        split
        · simp
        · exact h.phaseM v
      · simp only [hup]; exact hnd
      · simp only [hup]; exact hmemr
      · simp only [hup, hupm, hlen]
      · intro v hv hl; exact hupm
      · intro v hv hl; exact hupm
      · intro _; exact hupm
      · exact h.rest
      · intro x hx y hy
        simp only [List.mem_append, farewell_mem] at hx
        rcases hx with hx | hx | hx
        · exact h.dataDst x (List.mem_of_mem_erase hx) y hy
        · rw [hx.1] at hy; simp at hy
        · rw [hx] at hy; simp at hy
    · rename_i hlen
      simp only [Option.some.injEq] at hs
      subst hs
      constructor
      · intro x hx; exact Nat.le_trans count_erase_le (h.once x hx)
      · intro x hx
        simp only [mem_erase_once honce, h.mem x hx]
        obtain ⟨src', dst', kind'⟩ := x
        cases kind' with
        | data y => exact absurd rfl (hx y)
        | cancel => simp [Under, Cancelled]
        | ready =>
          simp only [Under, hup, Posted]
          simp only [List.mem_append, List.mem_singleton, not_or]
          constructor
          · rintro ⟨ha, hb, hd, he, hf⟩
            exact ⟨hb, hd, he, hf, fun e => ha (by rw [e, hb])⟩
          · rintro ⟨hb, hd, he, hf, hg⟩
            exact ⟨by simp [hg], hb, hd, he, hf⟩
        | stop => simp [Under]
        | stopObject => simp [Under]
      · exact h.canc
      · exact h.phaseW
      · exact h.phaseM
      · simp only [hup]; exact hnd
      · simp only [hup]; exact hmemr
      · simp only [hup, hnl, hlen]
      · exact h.leftW
      · exact h.leftM
      · exact h.doneR
      · exact h.rest
      · intro x hx; exact h.dataDst x (List.mem_of_mem_erase hx)

theorem inv_step {c : Cfg} {s s' : State} (hc : Valid c) (h : Inv c s) (a : Act) (ha : a ≠ .interrupt)
    (hs : step c s a = some s') : Inv c s' := by
  cases a with
  | shutdown => exact inv_shutdown hc h hs
  | interrupt => exact absurd rfl ha
  | cancelNext => exact inv_cancelNext h hs
  | send src dst sync =>
    simp only [step] at hs
    split at hs
    · rename_i hg
      simp only [Option.some.injEq] at hs
      subst hs
      exact inv_data h _ _ _ hg.2
    · simp at hs
  | coroutine w sync =>
    simp only [step] at hs
    split at hs
    · simp only [Option.some.injEq] at hs
      subst hs
      exact inv_data h _ _ _ (List.mem_append_right _ hc.mon)
    · simp at hs
  | deliver m =>
    simp only [step] at hs
    split at hs
    · rename_i hm
      split at hs
      · exact inv_recvRoot h m hm hs
      · rename_i h0
        split at hs
        · rename_i hmon
          exact inv_recvMonitor hc h m hm h0 hmon hs
        · rename_i hmon
          exact inv_recvWorker hc h m hm h0 hmon hs
    · simp at hs
  | finished w => exact inv_finished hc h w hs

theorem inv_run {c : Cfg} {s s' : State} (hc : Valid c) (h : Inv c s) (acts : List Act) (ha : .interrupt ∉ acts)
    (hs : run c s acts = some s') : Inv c s' := by
  induction acts generalizing s with
  | nil => simp only [run, Option.some.injEq] at hs; exact hs ▸ h
  | cons a l ih =>
    simp only [run, Option.bind_eq_some_iff] at hs
    obtain ⟨t, ht, hs⟩ := hs
    simp only [List.mem_cons, not_or] at ha
    exact ih (inv_step hc h a (fun e => ha.1 e.symm) ht) ha.2 hs

/-! ### Progress -/

/-- Steps of the protocol. -/
def Act.protocol : Act → Bool
  | .shutdown => false
  | .interrupt => false
  | .send .. => false
  | .coroutine .. => false
  | _ => true

theorem progress {c : Cfg} {s : State} (hc : Valid c) (h1 : c.rootMonitor = 1) (h : Inv c s) (hi : s.root ≠ .idle)
    (hd : ∀ m ∈ s.net, m.kind ≠ .data true) (hno : ∀ a : Act, a.protocol = true → step c s a = none) :
    s.root = .done ∧ (∀ w ∈ c.workers, s.worker w = .left) ∧ (∀ m ∈ c.monitors, s.monitor m = .left) := by
  have hm0 : c.rootMonitor ≠ 0 := by omega
  have hwm : ∀ w ∈ c.workers, w ≠ 0 ∧ w ∉ c.monitors := fun w hw => ⟨fun e => hc.rootW (e ▸ hw), hc.disjoint w hw⟩
  have hcn := hno .cancelNext rfl
  have hsent : ∀ w, Cancelled s w := by
    intro w
    simp only [step] at hcn
    cases hr : s.root with
    | idle => exact absurd hr hi
    | sending l => rw [hr] at hcn; cases l <;> simp at hcn
    | waiting => simp [Cancelled, hr]
    | done => simp [Cancelled, hr]
  have hposted : ∀ w ∈ c.workers, Posted s w := by
    intro w hw
    cases hp : s.worker w with
    | ready => exact Or.inl hp
    | left => exact Or.inr hp
    | crashed => exact absurd hp (h.phaseW w)
    | running =>
      have hin : (⟨0, w, .cancel⟩ : Msg) ∈ s.net := (h.mem _ (by simp)).2 ⟨rfl, hw, hsent w, hp⟩
      have := hno (.deliver ⟨0, w, .cancel⟩) rfl
      simp [step, hin, hwm w hw, recvWorker, hp] at this
    | finishing =>
      have := hno (.finished w) rfl
      simp only [step, hw, hp, true_and] at this
      rw [if_pos (fun m hm hk => hd m hm hk.2)] at this
      simp at this
  have hleft : s.monitor c.rootMonitor = .left := by
    rcases h.phaseM c.rootMonitor with hr | hr
    · have hsub : ∀ w ∈ c.workers, w ∈ s.readyAt c.rootMonitor := by
        intro w hw
        by_cases hx : w ∈ s.readyAt c.rootMonitor
        · exact hx
        · have hin : (⟨w, c.rootMonitor, .ready⟩ : Msg) ∈ s.net := (h.mem _ (by simp)).2 ⟨rfl, hw, hposted w hw, hx⟩
          have := hno (.deliver ⟨w, c.rootMonitor, .ready⟩) rfl
          simp only [step, hin, if_true, hm0, if_false, hc.mon, recvMonitor, hr] at this
          split at this <;> simp at this
      have hp := List.Nodup.subperm hc.nodupW hsub
      have hp' := List.Nodup.subperm h.readyNodup fun v hv => (h.readyMem v hv).1
      exact h.stopped.2 (Nat.le_antisymm hp'.length_le hp.length_le)
    · exact hr
  refine ⟨?_, ?_, ?_⟩
  · cases hr : s.root with
    | done => rfl
    | idle => exact absurd hr hi
    | sending l => simp only [step, hr] at hcn; cases l <;> simp at hcn
    | waiting =>
      have hin : (⟨c.rootMonitor, 0, .stopObject⟩ : Msg) ∈ s.net := (h.mem _ (by simp)).2 ⟨rfl, rfl, hleft, by rw [hr]; simp⟩
      have := hno (.deliver ⟨c.rootMonitor, 0, .stopObject⟩) rfl
      simp [step, recvRoot, hr, h1] at this
      exact absurd (h1 ▸ hin) this
  · intro w hw
    rcases hposted w hw with hp | hp
    · have hne : w ≠ c.rootMonitor := fun e => hc.disjoint w hw (e ▸ hc.mon)
      have hin : (⟨c.rootMonitor, w, .stop⟩ : Msg) ∈ s.net := (h.mem _ (by simp)).2 ⟨rfl, hleft, hne, Or.inl ⟨hw, hp⟩⟩
      have := hno (.deliver ⟨c.rootMonitor, w, .stop⟩) rfl
      simp [step, hin, hwm w hw, recvWorker, hp] at this
    · exact hp
  · intro m hm
    rcases h.phaseM m with hp | hp
    · by_cases hne : m = c.rootMonitor
      · rw [hne]; exact hleft
      · have hin : (⟨c.rootMonitor, m, .stop⟩ : Msg) ∈ s.net := (h.mem _ (by simp)).2 ⟨rfl, hleft, hne, Or.inr ⟨hm, hp⟩⟩
        have hm0' : m ≠ 0 := fun e => hc.rootM (e ▸ hm)
        have := hno (.deliver ⟨c.rootMonitor, m, .stop⟩) rfl
        simp [step, hin, hm0', hm, recvMonitor, hp] at this
    · exact hp

/-- Weight of a process: the number of steps it still has to make. -/
def Phase.weight : Phase → Nat
  | .running => 3
  | .finishing => 2
  | .ready => 1
  | _ => 0

/-- Weight of the root. -/
def Root.weight (n : Nat) : Root → Nat
  | .idle => n + 3
  | .sending rest => rest.length + 2
  | .waiting => 1
  | .done => 0

/-- A message outside the protocol. -/
def Msg.isData (m : Msg) : Bool := match m.kind with
  | .data _ => true
  | _ => false

/-- Bound on the number of remaining protocol steps. -/
def measure (c : Cfg) (s : State) : Nat :=
  s.root.weight c.workers.length + (c.workers.map fun w => (s.worker w).weight).sum +
    (c.monitors.map fun m => (s.monitor m).weight).sum + (c.workers.length - (s.readyAt c.rootMonitor).length)
    + s.net.countP Msg.isData

theorem sum_upd_lt {l : List Nat} (hn : l.Nodup) {f : Nat → Phase} {r : Nat} (hr : r ∈ l) {p : Phase}
    (hp : p.weight < (f r).weight) :
    (l.map fun w => (upd f r p w).weight).sum < (l.map fun w => (f w).weight).sum := by
  induction l with
  | nil => simp at hr
  | cons a l ih =>
    rw [List.nodup_cons] at hn
    by_cases ha : a = r
    · subst ha
      have : (l.map fun w => (upd f a p w).weight) = l.map fun w => (f w).weight := by
        apply List.map_congr_left
        intro w hw
        have : w ≠ a := fun e => hn.1 (e ▸ hw)
        simp [upd, this]
      simp only [List.map_cons, List.sum_cons, this]
      have : (upd f a p a) = p := by simp [upd]
      rw [this]; omega
    · simp only [List.mem_cons] at hr
      rcases hr with hr | hr
      · exact absurd hr.symm ha
      · have := ih hn.2 hr
        simp only [List.map_cons, List.sum_cons]
        have h2 : (upd f r p a) = f a := by simp [upd, ha]
        rw [h2]; omega

theorem countP_erase_data {l : List Msg} {m : Msg} (hm : m ∈ l) :
    (l.erase m).countP Msg.isData + (if m.isData then 1 else 0) = l.countP Msg.isData := by
  have := (List.perm_cons_erase hm).countP_eq Msg.isData
  rw [this, List.countP_cons]

theorem countP_farewell (c : Cfg) (r : Nat) : (farewell c r).countP Msg.isData = 0 := by
  rw [List.countP_eq_zero]
  intro m hm
  rcases farewell_mem.1 hm with h | h
  · simp [Msg.isData, h.1]
  · simp [Msg.isData, h]

theorem measure_step {c : Cfg} {s s' : State} (hc : Valid c) (h : Inv c s) (a : Act) (ha : a.protocol = true)
    (hs : step c s a = some s') : measure c s' < measure c s := by
  have hdata0 : ∀ x y, Msg.isData ⟨x, y, .cancel⟩ = false ∧ Msg.isData ⟨x, y, .ready⟩ = false ∧
      Msg.isData ⟨x, y, .stop⟩ = false ∧ Msg.isData ⟨x, y, .stopObject⟩ = false := fun x y => ⟨rfl, rfl, rfl, rfl⟩
  have hdata1 : ∀ x y z, Msg.isData ⟨x, y, .data z⟩ = true := fun x y z => rfl
  cases a with
  | shutdown => simp [Act.protocol] at ha
  | interrupt => simp [Act.protocol] at ha
  | send _ _ _ => simp [Act.protocol] at ha
  | coroutine _ _ => simp [Act.protocol] at ha
  | cancelNext =>
    simp only [step] at hs
    split at hs
    · rename_i hr
      simp only [Option.some.injEq] at hs
      subst hs
      simp [measure, hr, Root.weight, List.countP_append, hdata0]
    · rename_i hr
      simp only [Option.some.injEq] at hs
      subst hs
      simp [measure, hr, Root.weight]
    · simp at hs
  | finished w =>
    simp only [step] at hs
    split at hs
    · rename_i hg
      obtain ⟨hw, hf, -⟩ := hg
      simp only [Option.some.injEq] at hs
      subst hs
      have := sum_upd_lt hc.nodupW (f := s.worker) hw (p := .ready) (by rw [hf]; decide)
      simp only [measure, List.countP_append, List.countP_singleton, hdata0, Bool.false_eq_true, if_false]
      omega
    · simp at hs
  | deliver m =>
    simp only [step] at hs
    split at hs
    swap
    · simp at hs
    rename_i hm
    have herase := countP_erase_data hm
    split at hs
    · simp only [recvRoot] at hs
      split at hs
      · rename_i hg
        obtain ⟨hw, hk, -⟩ := hg
        simp only [Option.some.injEq] at hs
        subst hs
        simp only [measure, Root.weight, hw]
        split at herase <;> omega
      · simp at hs
    · rename_i h0
      split at hs
      · rename_i hmon
        simp only [recvMonitor] at hs
        split at hs
        swap
        · simp at hs
        rename_i hrun
        obtain ⟨src, dst, kind⟩ := m
        simp only at hrun hmon h0
        have hsum := fun p (hp : p.weight < 3) => sum_upd_lt hc.nodupM (f := s.monitor) hmon (p := p) (by rw [hrun]; exact hp)
        cases kind with
        | data y =>
          simp only [Option.some.injEq] at hs
          subst hs
          rw [hdata1, if_pos rfl] at herase
          simp only [measure]
          omega
        | cancel =>
          simp only [Option.some.injEq] at hs
          subst hs
          have := hsum .crashed (by decide)
          simp only [hdata0, Bool.false_eq_true, if_false] at herase
          simp only [measure]
          omega
        | stopObject => simp at hs
        | stop =>
          simp only [Option.some.injEq] at hs
          subst hs
          have := hsum .left (by decide)
          simp only [hdata0, Bool.false_eq_true, if_false] at herase
          simp only [measure]
          omega
        | ready =>
          have hu := (h.mem _ (by simp)).1 hm
          obtain ⟨h1, h2, h3, h4⟩ := hu
          simp only at h1 h2 h3 h4
          subst h1
          have hup : upd s.readyAt c.rootMonitor (s.readyAt c.rootMonitor ++ [src]) c.rootMonitor = s.readyAt c.rootMonitor ++ [src] := by
            simp [upd]
          have hlt : (s.readyAt c.rootMonitor).length < c.workers.length := by
            have hnd : (s.readyAt c.rootMonitor ++ [src]).Nodup := by
              rw [List.nodup_append]
              exact ⟨h.readyNodup, by simp, fun a ha b hb e => h4 (by simp only [List.mem_singleton] at hb; rw [← hb, ← e]; exact ha)⟩
            have hsub : ∀ w ∈ s.readyAt c.rootMonitor ++ [src], w ∈ c.workers := by
              intro w hw
              simp only [List.mem_append, List.mem_singleton] at hw
              rcases hw with hw | rfl
              · exact (h.readyMem w hw).1
              · exact h2
            have := (List.Nodup.subperm hnd hsub).length_le
            simp at this
            omega
          simp only [hdata0, Bool.false_eq_true, if_false] at herase
          simp only at hs
          split at hs
          · simp only [Option.some.injEq] at hs
            subst hs
            have := hsum .left (by decide)
            simp only [measure, hup, List.length_append, List.length_singleton, List.countP_append, countP_farewell]
            omega
          · simp only [Option.some.injEq] at hs
            subst hs
            simp only [measure, hup, List.length_append, List.length_singleton]
            omega
      · rename_i hmon
        obtain ⟨src, dst, kind⟩ := m
        simp only at hmon h0
        simp only [recvWorker] at hs
        have hle : ∀ (p : Phase), s'.root = s.root → s'.monitor = s.monitor → s'.readyAt = s.readyAt →
            s'.net = s.net.erase ⟨src, dst, kind⟩ → s'.worker = upd s.worker dst p → dst ∈ c.workers →
            p.weight < (s.worker dst).weight → measure c s' < measure c s := by
          intro p e1 e2 e3 e4 e5 hd hp
          have := sum_upd_lt hc.nodupW (f := s.worker) hd (p := p) hp
          simp only [measure, e1, e2, e3, e4, e5]
          split at herase <;> omega
        cases kind with
        | data y =>
          have hs' : s' = { s with net := s.net.erase ⟨src, dst, .data y⟩ } := by
            revert hs
            cases s.worker dst <;> simp <;> exact fun e => e.symm
          rw [hs']
          rw [hdata1, if_pos rfl] at herase
          simp only [measure]
          omega
        | cancel =>
          have hu := (h.mem _ (by simp)).1 hm
          obtain ⟨-, h2, -, h4⟩ := hu
          simp only at h2 h4
          rw [h4] at hs
          simp only [Option.some.injEq] at hs
          subst hs
          exact hle .finishing rfl rfl rfl rfl rfl h2 (by rw [h4]; decide)
        | ready =>
          have hu := (h.mem _ (by simp)).1 hm
          have hd : dst = c.rootMonitor := hu.1
          exact absurd (hd ▸ hc.mon) hmon
        | stop =>
          have hu := (h.mem _ (by simp)).1 hm
          obtain ⟨-, -, -, h4⟩ := hu
          rcases h4 with ⟨h4, h5⟩ | ⟨h4, -⟩
          · simp only at h4 h5
            rw [h5] at hs
            simp only [Option.some.injEq] at hs
            subst hs
            exact hle .left rfl rfl rfl rfl rfl h4 (by rw [h5]; decide)
          · exact absurd h4 hmon
        | stopObject =>
          have hu := (h.mem _ (by simp)).1 hm
          exact absurd hu.2.1 h0

theorem measure_run {c : Cfg} {s s' : State} (hc : Valid c) (h : Inv c s) (acts : List Act)
    (ha : ∀ a ∈ acts, a.protocol = true) (hs : run c s acts = some s') : measure c s' + acts.length ≤ measure c s := by
  induction acts generalizing s with
  | nil => simp only [run, Option.some.injEq] at hs; subst hs; simp
  | cons a l ih =>
    simp only [run, Option.bind_eq_some_iff] at hs
    obtain ⟨t, ht, hs⟩ := hs
    have h1 := measure_step hc h a (ha a List.mem_cons_self) ht
    have hne : a ≠ .interrupt := by
      rintro rfl
      have := ha _ List.mem_cons_self
      simp [Act.protocol] at this
    have h2 := ih (inv_step hc h a hne ht) (fun b hb => ha b (List.mem_cons_of_mem _ hb)) hs
    simp only [List.length_cons]
    omega

end Verif.Shutdown
