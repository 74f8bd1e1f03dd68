import Verif.Lemmas.SharedGet

/-! Property C113: a `get` from shared memory ends, with the bytes that were put. -/
namespace Verif.Props
open Verif.SharedGet

/-- A step of some `get` that changes something: everything but a look at a cell that is still empty. -/
def GetStep (s : SharedGet.State) : SharedGet.Op → Prop
  | .check _ => True
  | .reserve _ _ => True
  | .copy _ => True
  | .poll p => s.step (.poll p) ≠ some s
  | .register _ => True
  | _ => False

/-- Only such steps. -/
def OnlyGets : SharedGet.State → List SharedGet.Op → Prop
  | _, [] => True
  | s, op :: ops => GetStep s op ∧ ∀ s', s.step op = some s' → OnlyGets s' ops

/-- C113, first half, as one would expect it: a value that `get` returns consists of the bytes of the object. -/
def C113_right : Prop :=
  ∀ (before after slot : Nat) (procs : List Nat) (ops : List SharedGet.Op) (s : SharedGet.State),
    (∀ h ∈ procs, h < before + 1 + after) → (SharedGet.State.init before after slot procs).run ops = some s →
    ∀ q ∈ s.procs, q.phase ≠ .got false

/-- C113, second half: when no `get` can make a step any more, none is left unfinished. -/
def C113_ends : Prop :=
  ∀ (before after slot : Nat) (procs : List Nat) (ops : List SharedGet.Op) (s : SharedGet.State),
    (∀ h ∈ procs, h < before + 1 + after) → (SharedGet.State.init before after slot procs).run ops = some s →
    (∀ op, GetStep s op → s.step op = none) → ∀ q ∈ s.procs, ¬ Busy q.phase

/-- C113 is violated: if the object is reclaimed while the package is under way to a process of the same host, the process makes
a new reservation, asks its own monitor for the bytes, and gets what happens to be in its new reservation. -/
theorem C113_garbage_violated : ¬ C113_right ∧
    (SharedGet.State.init 0 0 0 [0]).run [.send 0 0, .drop 0, .cleanup, .check 0, .reserve 0 0, .copy 0, .register 0] =
      some ⟨[⟨some 0, some 0, false, 2⟩], [⟨0, .got false⟩]⟩ := by
  refine ⟨fun h => ?_, by decide⟩
  exact absurd rfl (h 0 0 0 [0] [.send 0 0, .drop 0, .cleanup, .check 0, .reserve 0 0, .copy 0, .register 0]
    ⟨[⟨some 0, some 0, false, 2⟩], [⟨0, .got false⟩]⟩ (by simp) (by decide) ⟨0, .got false⟩ (by simp))

/-- The same between hosts: two processes on two hosts hold packages that name the other host; both copy from a reservation
that nobody has filled. -/
theorem C113_mutual_violated :
    ((SharedGet.State.init 0 1 0 [0, 1, 1]).run [.send 2 0, .check 2, .reserve 2 0, .copy 2, .register 2, .send 0 1, .send 1 0,
      .drop 1, .drop 1, .drop 0, .cleanup, .check 0, .check 1, .reserve 0 0, .reserve 1 0, .copy 0, .copy 1, .register 0,
      .register 1]).map (fun s => s.procs.map (·.phase)) = some [.got false, .got false, .got true] := by decide

/-- C113 is violated: a process waits for the copy that another one makes. The other one finishes, uses the object and drops
it, and the object is reclaimed before the waiting process looks again. It waits for ever, even when the object comes back
to the host in another cell. -/
theorem C113_waits_violated : ¬ C113_ends ∧
    ((SharedGet.State.init 0 1 0 [1, 1, 1]).run [.send 0 0, .send 1 0, .send 2 0, .check 0, .check 1, .reserve 0 0, .reserve 1 0,
      .copy 0, .register 0, .leave 0, .drop 1, .drop 1, .drop 0, .cleanup, .poll 1]).map (fun s => s.procs.map (·.phase)) =
        some [.idle, .waiting 0, .pkg 0 0] ∧
    ∃ s, (SharedGet.State.init 0 1 0 [1, 0, 1]).run [.send 0 0, .send 2 0, .check 0, .check 2, .reserve 0 0, .reserve 2 0,
        .copy 0, .register 0, .leave 0, .send 0 1, .send 1 1, .drop 1, .drop 1, .drop 0, .cleanup, .check 1, .reserve 1 0,
        .check 0, .reserve 0 8, .copy 0, .copy 1, .register 0, .register 1, .poll 2] = some s ∧
      s.procs.map (·.phase) = [.got false, .got false, .waiting 0] ∧ s.hosts.map (·.pub) = [some 0, some 8] := by
  refine ⟨fun h => ?_, by decide, _, rfl, by decide, by decide⟩
  have := h 0 1 0 [1, 1] [.send 0 0, .send 1 0, .check 0, .check 1, .reserve 0 0, .reserve 1 0, .copy 0, .register 0, .leave 0,
    .drop 1, .drop 1, .drop 0, .cleanup] ⟨[⟨none, none, true, 0⟩, ⟨none, none, true, 0⟩], [⟨1, .idle⟩, ⟨1, .waiting 0⟩]⟩
    (by simp) (by decide) ?_ ⟨1, .waiting 0⟩ (by simp)
  · exact this trivial
  · intro op hop
    cases op with
    | check p => match p with | 0 => rfl | 1 => rfl | p + 2 => rfl
    | reserve p t => match p with | 0 => rfl | 1 => rfl | p + 2 => rfl
    | copy p => match p with | 0 => rfl | 1 => rfl | p + 2 => rfl
    | poll p => match p with | 0 => rfl | 1 => exact absurd rfl hop | p + 2 => rfl
    | register p => match p with | 0 => rfl | 1 => rfl | p + 2 => rfl
    | _ => exact absurd hop (by simp [GetStep])

/-- C113, positive part: if the object is never reclaimed while a `get` of it is under way, every value that is returned
consists of the bytes of the object. -/
theorem C113_right_partial (before after slot : Nat) (procs : List Nat) (ops : List SharedGet.Op) (s : SharedGet.State)
    (hp : ∀ h ∈ procs, h < before + 1 + after) (hq : Quiet (SharedGet.State.init before after slot procs) ops)
    (hr : (SharedGet.State.init before after slot procs).run ops = some s) : ∀ q ∈ s.procs, q.phase ≠ .got false := by
  intro q hm e
  obtain ⟨p, hp'⟩ := List.mem_iff_getElem?.1 hm
  have := (SharedGet.inv_run ops (SharedGet.inv_init before after slot procs hp) hq hr).proc p q hp'
  simp [PhaseOk, e] at this

/-- C113, positive part: under the same condition, when no `get` can make a step any more, all are finished. -/
theorem C113_ends_partial (before after slot : Nat) (procs : List Nat) (ops : List SharedGet.Op) (s : SharedGet.State)
    (hp : ∀ h ∈ procs, h < before + 1 + after) (hq : Quiet (SharedGet.State.init before after slot procs) ops)
    (hr : (SharedGet.State.init before after slot procs).run ops = some s) (hstuck : ∀ op, GetStep s op → s.step op = none) :
    ∀ q ∈ s.procs, ¬ Busy q.phase := by
  have hi := SharedGet.inv_run ops (SharedGet.inv_init before after slot procs hp) hq hr
  have nocopy : ∀ (p : Nat) (k src t : Nat), s.procs[p]? ≠ some ⟨k, .copying src t⟩ := by
    intro p k src t he
    have h1 := hstuck (.copy p) trivial
    obtain ⟨-, ⟨o, u, o1, o2, -⟩, y, y1, -, -⟩ := hi.proc p _ he
    simp only [SharedGet.State.step, he] at h1
    simp only at y1
    simp only [y1, o1, o2] at h1
    cases h1
  intro q hm hb
  obtain ⟨p, hp'⟩ := List.mem_iff_getElem?.1 hm
  have hh := hi.home p q hp'
  obtain ⟨x, hx⟩ : ∃ x, s.hosts[q.host]? = some x := ⟨_, List.getElem?_eq_getElem hh⟩
  obtain ⟨host, phase⟩ := q
  simp only at hx
  cases phase with
  | idle => exact hb
  | got r => exact hb
  | pkg src t =>
    have h1 := hstuck (.check p) trivial
    simp only [SharedGet.State.step, hp', hx] at h1
    cases h1
  | asking src =>
    have h1 := hstuck (.reserve p 0) trivial
    simp only [SharedGet.State.step, hp', hx] at h1
    split at h1 <;> cases h1
  | copying src t => exact nocopy p _ _ _ hp'
  | waiting t =>
    obtain ⟨y, y1, y2⟩ := hi.proc p _ hp'
    simp only at y1
    rw [hx] at y1
    cases y1
    cases hpub : x.pub with
    | none =>
      obtain ⟨p', src, h4⟩ := hi.copier host x t hx y2 hpub
      exact nocopy p' _ _ _ h4
    | some v =>
      have hv := (hi.pub host x v hx hpub).1
      rw [y2] at hv
      cases hv
      have hst : s.step (.poll p) = some (s.setPhase p ⟨host, .waiting t⟩ (.found t)) := by
        simp [SharedGet.State.step, hp', hx, hpub]
      have h1 := hstuck (.poll p) (by
        simp only [GetStep]
        rw [hst]
        intro e
        simp only [Option.some.injEq] at e
        have := congrArg (fun s => s.procs[p]?) e
        simp only [SharedGet.State.setPhase] at this
        rw [hp', List.getElem?_set, if_pos rfl, if_pos (List.getElem?_eq_some_iff.1 hp').1] at this
        cases this)
      rw [hst] at h1
      cases h1
  | found t =>
    have h1 := hstuck (.register p) trivial
    simp only [SharedGet.State.step, hp', hx] at h1
    cases h1

/-- Steps that a `get` still has to make at most. -/
def remaining : SharedGet.Phase → Nat
  | .idle => 0
  | .pkg _ _ => 4
  | .asking _ => 3
  | .copying _ _ => 2
  | .waiting _ => 2
  | .found _ => 1
  | .got _ => 0

theorem remaining_set {l : List Proc} {p : Nat} {q : Proc} {ph : SharedGet.Phase} (hq : l[p]? = some q)
    (hlt : remaining ph < remaining q.phase) :
    ((l.set p { q with phase := ph }).map fun q => remaining q.phase).sum + 1 ≤ (l.map fun q => remaining q.phase).sum := by
  induction l generalizing p with
  | nil => simp at hq
  | cons a t ih =>
    cases p with
    | zero =>
      simp only [List.getElem?_cons_zero, Option.some.injEq] at hq
      subst hq
      simp only [List.set_cons_zero, List.map_cons, List.sum_cons]
      omega
    | succ p =>
      have := ih (p := p) (by simpa using hq)
      simp only [List.set_cons_succ, List.map_cons, List.sum_cons]
      omega

theorem getStep_lowers {s s' : SharedGet.State} {op : SharedGet.Op} (hg : GetStep s op) (h : s.step op = some s') :
    (s'.procs.map fun q => remaining q.phase).sum + 1 ≤ (s.procs.map fun q => remaining q.phase).sum := by
  cases op with
  | check p =>
    simp only [SharedGet.State.step] at h
    split at h
    · rename_i q hq
      split at h
      · rename_i src slot o hph ho
        cases h
        refine remaining_set hq ?_
        rw [hph]
        split <;> simp [remaining]
      · cases h
    · cases h
  | reserve p slot =>
    simp only [SharedGet.State.step] at h
    split at h
    · rename_i q hq
      split at h
      · rename_i src o hph ho
        split at h <;> cases h <;> exact remaining_set hq (by rw [hph]; simp [remaining])
      · cases h
    · cases h
  | copy p =>
    simp only [SharedGet.State.step] at h
    split at h
    · rename_i q hq
      split at h
      · rename_i src slot o hph ho
        split at h
        · split at h
          · cases h
          · cases h; exact remaining_set hq (by rw [hph]; simp [remaining])
        · cases h
      · cases h
    · cases h
  | poll p =>
    have hg' : s.step (.poll p) ≠ some s := hg
    rw [h] at hg'
    simp only [SharedGet.State.step] at h
    split at h
    · rename_i q hq
      split at h
      · rename_i slot o hph ho
        cases h
        split at hg'
        · rename_i e
          rw [if_pos e]
          exact remaining_set hq (by rw [hph]; simp [remaining])
        · exact absurd rfl hg'
      · cases h
    · cases h
  | register p =>
    simp only [SharedGet.State.step] at h
    split at h
    · rename_i q hq
      split at h
      · rename_i slot o hph ho
        cases h
        exact remaining_set hq (by rw [hph]; simp [remaining])
      · cases h
    · cases h
  | _ => exact absurd hg (by simp [GetStep])

/-- C113: the processes cannot keep each other busy: in any state, at most four steps of `get` per process are possible,
apart from looks at cells that are still empty. -/
theorem C113_bounded (s s' : SharedGet.State) (ops : List SharedGet.Op) (ho : OnlyGets s ops) (h : s.run ops = some s') :
    ops.length ≤ 4 * s.procs.length := by
  have key : ∀ (ops : List SharedGet.Op) (s s' : SharedGet.State), OnlyGets s ops → s.run ops = some s' →
      ops.length + (s'.procs.map fun q => remaining q.phase).sum ≤ (s.procs.map fun q => remaining q.phase).sum := by
    intro ops
    induction ops with
    | nil => intro s s' _ h; cases h; simp
    | cons op ops ih =>
      intro s s' ho h
      simp only [SharedGet.State.run] at h
      obtain ⟨s1, h1, h2⟩ := Option.bind_eq_some_iff.1 h
      have a := getStep_lowers ho.1 h1
      have b := ih s1 s' (ho.2 s1 h1) h2
      simp only [List.length_cons]
      omega
  have hb : (s.procs.map fun q => remaining q.phase).sum ≤ 4 * s.procs.length := by
    generalize s.procs = l
    induction l with
    | nil => simp
    | cons a t ih =>
      have : remaining a.phase ≤ 4 := by cases a.phase <;> simp [remaining]
      simp only [List.map_cons, List.sum_cons, List.length_cons]
      omega
  have := key ops s s' ho h
  omega

/-- C113, positive part: under the condition of `C113_right_partial` at most one process of a host copies the object at a time,
and while a host has a reservation without metadata somebody is copying. -/
theorem C113_one_copy_partial (before after slot : Nat) (procs : List Nat) (ops : List SharedGet.Op) (s : SharedGet.State)
    (hp : ∀ h ∈ procs, h < before + 1 + after) (hq : Quiet (SharedGet.State.init before after slot procs) ops)
    (hr : (SharedGet.State.init before after slot procs).run ops = some s) :
    (∀ (p p' k src src' t t' : Nat), s.procs[p]? = some ⟨k, .copying src t⟩ → s.procs[p']? = some ⟨k, .copying src' t'⟩ → p = p') ∧
    ∀ (k : Nat) (h : SharedGet.Host) (t : Nat), s.hosts[k]? = some h → h.resv = some t → h.pub = none →
      ∃ (p : Nat) (src : Nat), s.procs[p]? = some ⟨k, .copying src t⟩ :=
  let hi := SharedGet.inv_run ops (SharedGet.inv_init before after slot procs hp) hq hr
  ⟨hi.one, hi.copier⟩

/-- What a clean-up leaves. -/
theorem clearHosts_spec : ∀ {hs hs' : List SharedGet.Host}, clearHosts hs = some hs' → ∀ (k : Nat) (h : SharedGet.Host),
    hs'[k]? = some h → h.resv = none
  | [], _, e, k, h, hk => by simp [clearHosts] at e; subst e; simp at hk
  | x :: t, hs', e, k, h, hk => by
      simp only [clearHosts] at e
      split at e
      · rename_i x' t' h1 h2
        cases e
        cases k with
        | zero =>
          simp at hk
          subst hk
          simp only [Host.clear] at h1
          split at h1
          · cases h1; assumption
          · split at h1
            · cases h1; rfl
            · simp at h1
        | succ k => simp at hk; exact clearHosts_spec h2 k h hk
      · simp at e

/-- C113: memory is reclaimed only by a clean-up that finds no references on any host, and then on all hosts: in every history, if a
step takes the reservation of a host away or changes it, the step is a clean-up, no host had references, and afterwards no host has a
reservation. -/
theorem C113_reclaim (s s' : SharedGet.State) (op : SharedGet.Op) (h : s.step op = some s') (k t : Nat) (x x' : SharedGet.Host)
    (hx : s.hosts[k]? = some x) (hx' : s'.hosts[k]? = some x') (ht : x.resv = some t) (hne : x'.resv ≠ some t) :
    op = .cleanup ∧ (∀ y ∈ s.hosts, y.refs = 0) ∧ ∀ y ∈ s'.hosts, y.resv = none := by
  have same : s'.hosts = s.hosts → False := by
    intro e
    rw [e, hx] at hx'
    cases hx'
    exact hne ht
  have setv : ∀ (j : Nat) (z w : SharedGet.Host), s.hosts[j]? = some z → s'.hosts = s.hosts.set j w →
      (∀ t, z.resv = some t → w.resv = some t) → False := by
    intro j z w hz e hr
    rw [e, List.getElem?_set] at hx'
    split at hx'
    · rename_i hj
      subst hj
      rw [hx] at hz
      cases hz
      split at hx'
      · cases hx'; exact hne (hr t ht)
      · simp at hx'
    · rw [hx] at hx'
      cases hx'
      exact hne ht
  cases op with
  | send p src =>
    exfalso; apply same
    simp only [SharedGet.State.step] at h
    repeat' split at h
    all_goals first | (cases h; rfl) | simp at h
  | check p =>
    exfalso; apply same
    simp only [SharedGet.State.step] at h
    repeat' split at h
    all_goals first | (cases h; rfl) | simp at h
  | poll p =>
    exfalso; apply same
    simp only [SharedGet.State.step] at h
    repeat' split at h
    all_goals first | (cases h; rfl) | simp at h
  | leave p =>
    exfalso; apply same
    simp only [SharedGet.State.step] at h
    repeat' split at h
    all_goals first | (cases h; rfl) | simp at h
  | reserve p slot =>
    exfalso
    simp only [SharedGet.State.step] at h
    split at h
    · rename_i q hq
      split at h
      · rename_i src z hph hz
        split at h
        · cases h; exact same rfl
        · rename_i hn
          cases h
          exact setv _ z _ hz rfl (fun t e => by rw [hn] at e; simp at e)
      · simp at h
    · simp at h
  | copy p =>
    exfalso
    simp only [SharedGet.State.step] at h
    split at h
    · split at h
      · rename_i hz
        split at h
        · split at h
          · simp at h
          · cases h
            exact setv _ _ _ hz rfl (fun t e => e)
        · simp at h
      · simp at h
    · simp at h
  | register p =>
    exfalso
    simp only [SharedGet.State.step] at h
    split at h
    · split at h
      · rename_i hz
        cases h
        exact setv _ _ _ hz rfl (fun t e => e)
      · simp at h
    · simp at h
  | drop j =>
    exfalso
    simp only [SharedGet.State.step] at h
    split at h
    · rename_i hz
      split at h
      · simp at h
      · cases h
        exact setv _ _ _ hz rfl (fun t e => e)
    · simp at h
  | cleanup =>
    simp only [SharedGet.State.step] at h
    split at h
    · rename_i hall
      simp only [Option.map_eq_some_iff] at h
      obtain ⟨hs, h1, rfl⟩ := h
      refine ⟨rfl, by simpa using hall, ?_⟩
      intro y hy
      obtain ⟨j, hj⟩ := List.mem_iff_getElem?.1 hy
      exact clearHosts_spec h1 j y hj
    · cases h
      exact (same rfl).elim

example : (SharedGet.State.mk [⟨some 3, some 3, true, 0⟩, ⟨none, none, false, 1⟩] []).step .cleanup =
      some ⟨[⟨some 3, some 3, true, 0⟩, ⟨none, none, false, 1⟩], []⟩ ∧
    (SharedGet.State.mk [⟨some 3, some 3, true, 0⟩, ⟨none, none, false, 0⟩] []).step .cleanup =
      some ⟨[⟨none, none, true, 0⟩, ⟨none, none, false, 0⟩], []⟩ := by decide

/-- Three processes of host 1 ask for an object of host 0: one copies, the others wait; all get it. Then everything is
dropped and reclaimed. -/
example : ((SharedGet.State.init 0 1 0 [1, 1, 1]).run [.send 0 0, .send 1 0, .send 2 0, .check 0, .check 1, .reserve 1 4,
      .reserve 0 0, .poll 0, .copy 1, .check 2, .reserve 2 0, .poll 0, .poll 2, .register 0, .register 1, .register 2]).map
      (fun s => (s.hosts, s.procs.map (·.phase))) =
    some ([⟨some 0, some 0, true, 1⟩, ⟨some 4, some 4, true, 4⟩], [.got true, .got true, .got true]) := by decide

end Verif.Props
