import Verif.Lemmas.Wait
import Verif.Lemmas.Monitor
import Verif.Lemmas.Decide

/-! Property C112: no request of a program ends a monitor. -/
namespace Verif.Props
open Verif.Shm Verif.Monitor

/-- C112 as one would expect it: a monitor that supports shared memory and receives only operations it knows, with identities
and sizes of real objects, never ends with an exception. -/
def C112_full : Prop :=
  ∀ (c : Config) (memLen svcLen : Nat) (reqs : List (Nat × Req)), c.shared = true → Monitor.Positive reqs →
    (∀ q ∈ reqs, q.2 ≠ .other ∧ q.2 ≠ .fetch none) →
    ∀ f, ((Phase.up (State.init memLen svcLen)).run c reqs).1 ≠ .raised f

/-- Which events end a monitor with which exception, in terms of the reservations and the metadata of the host. -/
def EndsWith (c : Config) (memLen svcLen : Nat) (s : State) : Req → Fault → Prop
  | .reserve id n, f =>
    (c.shared = false ∧ f = .notEnabled) ∨
    (c.shared = true ∧ s.host.mgr.get id = none ∧
      ((f = .memory ∧ ¬ Room s.host.mgr.get (·.first) (·.last) memLen n) ∨
       (f = .slots ∧ Room s.host.mgr.get (·.first) (·.last) memLen n ∧
          ¬ Room s.host.mgr.get (·.svc) (fun r => r.svc + 4) svcLen 4)))
  | .fetch none, f => f = .noneId
  | .fetch (some id), f =>
    (c.shared = false ∧ f = .notEnabled) ∨ (c.shared = true ∧ s.host.mgr.get id = none ∧ f = .unknownId)
  | .cleanup l refs, f =>
    c.shared = true ∧ f = .badSlot ∧ ∃ (k : Nat) (id : DataId) (r : Resv), (s.host.mgr.pending ++ l)[k]? = some id ∧
      refs[k]? = some 0 ∧ s.host.mgr.get id = some r ∧
      ¬ (s.host.words r.svc = id.rank ∧ s.host.words (r.svc + 1) = id.num)
  | .other, f => f = .unsupported
  | _, _ => False

/-- C112, exact: in a running monitor an event raises an exception exactly in the listed cases: memory or metadata slots have
no gap that is large enough, the object of a request has no reservation, or an object to reclaim has no published metadata. -/
theorem C112_exact_partial (c : Config) (memLen svcLen : Nat) (reqs : List (Nat × Req)) (s : State)
    (hpos : Monitor.Positive reqs) (hr : ((Phase.up (State.init memLen svcLen)).run c reqs).1 = .up s) (src : Nat) (q : Req)
    (hq : ∀ id n, q = .reserve id n → 1 ≤ n) (f : Fault) :
    (s.serve c src q).1 = .raised f ↔ EndsWith c memLen svcLen s q f := by
  have hi := inv_run reqs hpos (inv_init memLen svcLen) hr
  cases q with
  | taskDone ids => simp [State.serve, EndsWith]
  | wait ids num => simp [State.serve, EndsWith]
  | taskCount => simp [State.serve, EndsWith]
  | reserve id n =>
    have h1 := fun e => reserve_error_iff (id := id) (hq id n rfl) hi.1 hi.2 e
    simp only [State.serve, EndsWith]
    cases hc : c.shared with
    | false => simp [eq_comm]
    | true =>
      generalize hm : s.host.mgr.reserve id n = o at h1
      obtain ⟨e, m⟩ := o
      cases e with
      | ok p =>
        obtain ⟨r, first⟩ := p
        have a1 := h1 .overflowMemory
        have a2 := h1 .overflowService
        simp only [Prod.mk.injEq, reduceCtorEq, false_and, exists_false, false_iff, true_and, false_or, or_false] at a1 a2
        simp only [if_true, reduceCtorEq, false_and, true_and, false_or, false_iff]
        rintro ⟨hn, ⟨-, hx⟩ | ⟨-, hx⟩⟩
        · exact a1 ⟨hn, hx⟩
        · exact a2 ⟨hn, hx⟩
      | error e =>
        have a0 := h1 e
        simp only [Prod.mk.injEq, true_and, exists_eq', true_iff] at a0
        simp only [if_true, Phase.raised.injEq, reduceCtorEq, false_and, true_and, false_or]
        obtain ⟨hn, hx⟩ := a0
        rcases hx with ⟨rfl, hx⟩ | ⟨rfl, hx, hy⟩
        · simp only [hn, faultOf, true_and]
          constructor
          · rintro rfl; exact Or.inl ⟨rfl, hx⟩
          · rintro (⟨rfl, -⟩ | ⟨-, h, -⟩)
            · rfl
            · exact absurd h hx
        · simp only [hn, faultOf, true_and]
          constructor
          · rintro rfl; exact Or.inr ⟨rfl, hx, hy⟩
          · rintro (⟨-, h⟩ | ⟨rfl, -⟩)
            · exact absurd hx h
            · rfl
  | fetch o =>
    cases o with
    | none => simp [State.serve, EndsWith, eq_comm]
    | some id =>
      simp only [State.serve, EndsWith]
      cases hc : c.shared with
      | false => simp [eq_comm]
      | true => cases hg : s.host.mgr.get id <;> simp [eq_comm]
  | cleanup l refs =>
    have h1 := fun e => clear_error_iff (l := l) (refs := refs) (f := e) hi.1
    simp only [State.serve, EndsWith]
    cases hc : c.shared with
    | false => simp
    | true =>
      generalize hm : s.host.clear l refs = o at h1
      cases o with
      | ok h' =>
        have := h1 .unexpectedDataId
        simp only [reduceCtorEq, true_and, false_iff] at this
        simp only [if_true, reduceCtorEq, true_and, false_iff]
        rintro ⟨-, hx⟩
        exact this hx
      | error e =>
        have := h1 e
        simp only [true_iff] at this
        obtain ⟨rfl, hx⟩ := this
        simp only [if_true, Phase.raised.injEq, faultOf, true_and]
        constructor
        · rintro rfl; exact ⟨rfl, hx⟩
        · rintro ⟨rfl, -⟩; rfl
  | ready => simp only [State.serve, EndsWith]; split <;> simp
  | shutdown => simp [State.serve, EndsWith]
  | other => simp [State.serve, EndsWith, eq_comm]
  | poke i v => simp [State.serve, EndsWith]

/-- Memory for 10 bytes, 6 in use: a second object of 4 bytes is served, one of 5 bytes ends the monitor, and a repeated request
for the first one is answered whatever size it names. -/
example : let c : Config := ⟨true, 1, [2], [1]⟩
    let s := ((Phase.up (State.init 10 8)).run c [(0, .reserve ⟨0, 1⟩ 6), (0, .reserve ⟨0, 2⟩ 4)]).2
    s = [(0, .reserved ⟨0, 6, 0⟩ true), (0, .reserved ⟨6, 10, 4⟩ true)] ∧
    ((Phase.up (State.init 10 8)).run c [(0, .reserve ⟨0, 1⟩ 6), (0, .reserve ⟨0, 2⟩ 5)]).1 = .raised .memory ∧
    ((Phase.up (State.init 10 8)).run c [(0, .reserve ⟨0, 1⟩ 6), (2, .reserve ⟨0, 1⟩ 99)]).2 =
      [(0, .reserved ⟨0, 6, 0⟩ true), (2, .reserved ⟨0, 6, 0⟩ false)] := ⟨rfl, rfl, rfl⟩

/-- C112 fails for large objects: a `put` of an object that is larger than the whole shared memory ends the monitor, whatever
happened before. -/
theorem C112_large_violated :
    (∀ (c : Config) (memLen svcLen : Nat) (reqs : List (Nat × Req)) (s : State), c.shared = true → Monitor.Positive reqs →
      ((Phase.up (State.init memLen svcLen)).run c reqs).1 = .up s →
      ∀ src id n, memLen < n → s.host.mgr.get id = none → (s.serve c src (.reserve id n)).1 = .raised .memory) ∧
    ¬ C112_full := by
  have h0 : ∀ (c : Config) (memLen svcLen : Nat) (reqs : List (Nat × Req)) (s : State), c.shared = true →
      Monitor.Positive reqs → ((Phase.up (State.init memLen svcLen)).run c reqs).1 = .up s →
      ∀ src id n, memLen < n → s.host.mgr.get id = none → (s.serve c src (.reserve id n)).1 = .raised .memory := by
    intro c memLen svcLen reqs s hc hp hr src id n hn hid
    rw [C112_exact_partial c memLen svcLen reqs s hp hr src _ (fun id' n' e => by cases e; omega)]
    refine Or.inr ⟨hc, hid, Or.inl ⟨rfl, ?_⟩⟩
    rintro ⟨a, ha, -⟩
    omega
  refine ⟨h0, fun h => ?_⟩
  refine h ⟨true, 1, [2], [1]⟩ 10 8 [(0, .reserve ⟨0, 1⟩ 11)] rfl ?_ ?_ .memory rfl
  · intro src id n hm; simp at hm; omega
  · intro q hm; simp at hm; subst hm; simp

/-- C112 fails for many objects: when every metadata slot is taken, a `put` of a further object ends the monitor although its
bytes would fit. -/
theorem C112_slots_violated : ∃ (reqs : List (Nat × Req)) (c : Config), Monitor.Positive reqs ∧ c.shared = true ∧
    (∀ q ∈ reqs, ∃ num, q.2 = .reserve ⟨0, num⟩ 1) ∧
    reqs.length = 3 ∧ ((Phase.up (State.init 100 8)).run c reqs).1 = .raised .slots :=
  ⟨[(0, .reserve ⟨0, 1⟩ 1), (0, .reserve ⟨0, 2⟩ 1), (0, .reserve ⟨0, 3⟩ 1)], ⟨true, 1, [2], [1]⟩,
    by intro src id n hm; simp at hm; omega, rfl,
    by intro q hm; simp at hm; rcases hm with rfl | rfl | rfl <;> exact ⟨_, rfl⟩, rfl, rfl⟩

/-- C112 fails for scattered memory: half of the memory is free, but no piece is large enough for the object. -/
theorem C112_scattered_violated : ∃ (reqs : List (Nat × Req)) (c : Config) (s : State), Monitor.Positive reqs ∧
    c.shared = true ∧ ((Phase.up (State.init 20 100)).run c reqs).1 = .up s ∧
    s.host.mgr.mem = [(0, 5), (10, 15)] ∧ (s.serve c 0 (.reserve ⟨0, 9⟩ 6)).1 = .raised .memory := by
  refine ⟨[(0, .reserve ⟨0, 0⟩ 5), (0, .reserve ⟨0, 1⟩ 5), (0, .reserve ⟨0, 2⟩ 5), (0, .reserve ⟨0, 3⟩ 5), (0, .poke 0 0),
    (0, .poke 1 0), (0, .poke 8 0), (0, .poke 9 2), (0, .cleanup [⟨0, 0⟩, ⟨0, 2⟩] [0, 0])], ⟨true, 1, [2], [1]⟩, _, ?_, rfl,
    rfl, ?_, ?_⟩
  · intro src id n hm; simp at hm; omega
  · rfl
  · rfl

/-- C112 fails for reclaimed objects: a request for the bytes of an object that has been reclaimed ends the monitor. -/
theorem C112_fetch_violated : ∃ (reqs : List (Nat × Req)) (c : Config), Monitor.Positive reqs ∧ c.shared = true ∧
    ((Phase.up (State.init 20 8)).run c reqs).2 = [(2, .reserved ⟨0, 5, 0⟩ true), (3, .bytes 0 5)] ∧
    ((Phase.up (State.init 20 8)).run c reqs).1 = .raised .unknownId := by
  refine ⟨[(2, .reserve ⟨2, 0⟩ 5), (2, .poke 0 2), (2, .poke 1 0), (3, .fetch (some ⟨2, 0⟩)), (0, .cleanup [⟨2, 0⟩] [0]),
    (3, .fetch (some ⟨2, 0⟩))], ⟨true, 1, [2], [1]⟩, ?_, rfl, rfl, rfl⟩
  intro src id n hm; simp at hm; omega

/-- C112 fails for objects that are being copied: a cleanup of an object that has a reservation but no metadata yet ends the
monitor. -/
theorem C112_copying_violated :
    (∀ (c : Config) (memLen svcLen : Nat) (reqs : List (Nat × Req)) (s : State), c.shared = true → Monitor.Positive reqs →
      ((Phase.up (State.init memLen svcLen)).run c reqs).1 = .up s →
      ∀ src id r, s.host.mgr.get id = some r → s.host.words r.svc = -1 → s.host.mgr.pending = [] →
        (s.serve c src (.cleanup [id] [0])).1 = .raised .badSlot) ∧
    ((Phase.up (State.init 20 8)).run ⟨true, 1, [2], [1]⟩ [(2, .reserve ⟨2, 0⟩ 5), (0, .cleanup [⟨2, 0⟩] [0])]).1 =
      .raised .badSlot := by
  refine ⟨?_, rfl⟩
  intro c memLen svcLen reqs s hc hp hr src id r hid hw hpend
  rw [C112_exact_partial c memLen svcLen reqs s hp hr src _ (fun id' n' e => by cases e)]
  refine ⟨hc, rfl, 0, id, r, by simp [hpend], rfl, hid, ?_⟩
  rintro ⟨h, -⟩
  rw [hw] at h
  omega

/-- C112, consequence: after an exception the monitor sends nothing any more; every later request stays without answer. -/
theorem C112_silent (c : Config) (p : Phase) (pre post : List (Nat × Req)) (f : Fault) (h : (p.run c pre).1 = .raised f) :
    p.run c (pre ++ post) = p.run c pre := by
  induction pre generalizing p with
  | nil =>
    have h' : p = .raised f := h
    subst h'
    simp only [List.nil_append]
    rw [run_not_up c (by simp)]
    rfl
  | cons q qs ih =>
    simp only [List.cons_append, Phase.run]
    rw [ih _ h]

/-- Requests whose sender waits for an answer. -/
def AsksAnswer : Req → Prop
  | .taskCount => True
  | .reserve _ _ => True
  | .fetch _ => True
  | _ => False

/-- C112, positive part: a request for the number of tasks, for memory or for bytes that does not end the monitor is answered
with exactly one message, to the sender, and the monitor goes on. -/
theorem C112_answer_partial (c : Config) (s : State) (src : Nat) (q : Req) (hq : AsksAnswer q)
    (h : ∀ f, (s.serve c src q).1 ≠ .raised f) :
    ∃ s' m, s.serve c src q = (.up s', [(src, m)]) := by
  cases q with
  | taskCount => exact ⟨_, _, rfl⟩
  | reserve id n =>
    simp only [State.serve] at h ⊢
    cases hc : c.shared with
    | false => simp [hc] at h
    | true =>
      simp only [hc, if_true] at h ⊢
      generalize s.host.mgr.reserve id n = o at h ⊢
      obtain ⟨e, m⟩ := o
      cases e with
      | ok p => exact ⟨_, _, rfl⟩
      | error e => exact absurd rfl (h _)
  | fetch o =>
    cases o with
    | none => exact absurd rfl (h _)
    | some id =>
      simp only [State.serve] at h ⊢
      cases hc : c.shared with
      | false => simp [hc] at h
      | true =>
        simp only [hc, if_true] at h ⊢
        cases hg : s.host.mgr.get id with
        | some r => exact ⟨_, _, rfl⟩
        | none => simp [hg] at h
  | _ => exact absurd hq (by simp [AsksAnswer])

/-- Sizes of all objects of a program together. -/
def totalSize (size : DataId → Nat) (objs : List DataId) : Nat := (objs.map size).sum

/-- C112, positive part: if all objects that a program ever shares fit into the memory of the host together, and there is a
metadata slot for each of them, then the monitor answers every request as long as nothing is reclaimed: reservations are
repeated at will, bytes are requested after a reservation, and all other traffic is arbitrary. -/
theorem C112_fits_partial (c : Config) (memLen svcLen : Nat) (objs : List DataId) (size : DataId → Nat)
    (reqs : List (Nat × Req)) (hc : c.shared = true) (hnd : objs.Nodup) (hmem : totalSize size objs ≤ memLen)
    (hsvc : 4 * objs.length ≤ svcLen)
    (hres : ∀ src id n, (src, Req.reserve id n) ∈ reqs → id ∈ objs ∧ n = size id ∧ 1 ≤ n)
    (hfetch : ∀ pre post src x, reqs = pre ++ (src, Req.fetch x) :: post →
      ∃ src' id n, x = some id ∧ (src', Req.reserve id n) ∈ pre)
    (hcl : ∀ src l refs, (src, Req.cleanup l refs) ∉ reqs) (ho : ∀ src, (src, Req.other) ∉ reqs) :
    ∀ f, ((Phase.up (State.init memLen svcLen)).run c reqs).1 ≠ .raised f :=
  fits_run hc hnd hmem hsvc reqs (fits_init size objs memLen svcLen) hres
    (fun pre post src x e => by
      obtain ⟨s', id, n, h1, h2⟩ := hfetch pre post src x e
      exact ⟨id, h1, Or.inr ⟨s', n, h2⟩⟩) hcl ho

/-- Two objects fill memory and metadata; both are requested again and again. The third one ends the monitor. -/
example :
    let c : Config := ⟨true, 1, [2, 3], [1]⟩
    let reqs : List (Nat × Req) := [(2, .reserve ⟨2, 0⟩ 6), (3, .reserve ⟨3, 0⟩ 4), (3, .fetch (some ⟨2, 0⟩)),
      (0, .reserve ⟨2, 0⟩ 6), (2, .taskDone [some 7]), (0, .taskCount)]
    ((Phase.up (State.init 10 8)).run c reqs).2 = [(2, .reserved ⟨0, 6, 0⟩ true), (3, .reserved ⟨6, 10, 4⟩ true),
      (3, .bytes 0 6), (0, .reserved ⟨0, 6, 0⟩ false), (0, .count 1)] ∧
    ((Phase.up (State.init 10 8)).run c (reqs ++ [(0, .reserve ⟨0, 0⟩ 1), (0, .taskCount)])).1 = .raised .memory ∧
    ((Phase.up (State.init 10 8)).run c (reqs ++ [(0, .reserve ⟨0, 0⟩ 1), (0, .taskCount)])).2.length = 5 :=
  ⟨rfl, rfl, rfl⟩

/-- The regular end: the last worker reports, and everybody gets the signal. -/
example : let c : Config := ⟨true, 1, [3, 4], [1, 2]⟩
    (Phase.up (State.init 10 8)).run c [(3, .ready), (4, .ready), (0, .taskCount)] =
      (.left, [(3, .shutdown), (4, .shutdown), (2, .shutdown), (0, .shutdown)]) := rfl

/-! ## What a monitor answers -/

/-- A reference was asked for in a `wait`. -/
def WaitAsked (reqs : List (Nat × Req)) (i : Nat) : Prop := ∃ src ids num, (src, Req.wait ids num) ∈ reqs ∧ i ∈ ids

/-- A reference was reported as done. -/
def ReportedDone (reqs : List (Nat × Req)) (i : Nat) : Prop := ∃ src ids, (src, Req.taskDone ids) ∈ reqs ∧ some i ∈ ids

/-- An answer to `wait` that fits the requests: ready references were asked for and reported, the others were asked for, and there are as
many ready ones as some `wait` wanted. -/
def FittingAnswer (reqs : List (Nat × Req)) (r a : List Nat) : Prop :=
  (∀ x ∈ r, WaitAsked reqs x ∧ ReportedDone reqs x) ∧ (∀ x ∈ a, WaitAsked reqs x) ∧
    ∃ src ids num, (src, Req.wait ids num) ∈ reqs ∧ (r.length : Int) = num

/-- What the wait handler knows comes from requests. -/
structure WaitFits (reqs : List (Nat × Req)) (m : Verif.Wait.Monitor) : Prop where
  completed : ∀ x ∈ m.completed, ReportedDone reqs x
  ready : ∀ x ∈ m.ready, WaitAsked reqs x ∧ ReportedDone reqs x
  awaited : ∀ x ∈ m.awaited, WaitAsked reqs x
  num : m.awaited = [] ∨ ∃ src ids, (src, Req.wait ids m.num) ∈ reqs

theorem waitFits_mono {a : List (Nat × Req)} (b : List (Nat × Req)) {m : Verif.Wait.Monitor} (h : WaitFits a m) : WaitFits (a ++ b) m := by
  have hr : ∀ x, ReportedDone a x → ReportedDone (a ++ b) x := fun x ⟨src, ids, h1, h2⟩ => ⟨src, ids, by simp [h1], h2⟩
  have hw : ∀ x, WaitAsked a x → WaitAsked (a ++ b) x := fun x ⟨src, ids, num, h1, h2⟩ => ⟨src, ids, num, by simp [h1], h2⟩
  refine ⟨fun x hx => hr x (h.completed x hx), fun x hx => ⟨hw x (h.ready x hx).1, hr x (h.ready x hx).2⟩,
    fun x hx => hw x (h.awaited x hx), h.num.imp_right fun ⟨src, ids, h1⟩ => ⟨src, ids, by simp [h1]⟩⟩

theorem waitFits_process {reqs : List (Nat × Req)} {m : Verif.Wait.Monitor} (h : WaitFits reqs m) :
    WaitFits reqs m.process.1 ∧ ∀ p ∈ m.process.2, FittingAnswer reqs p.1 p.2 := by
  by_cases he : m.awaited = []
  · have : m.process = (m, []) := by simp [Verif.Wait.Monitor.process, he]
    rw [this]
    exact ⟨h, by simp⟩
  have hnum := h.num.resolve_left he
  have hall : ∀ x ∈ m.ready ++ m.awaited, WaitAsked reqs x := fun x hx => by
    rcases List.mem_append.1 hx with hx | hx
    · exact (h.ready x hx).1
    · exact h.awaited x hx
  have hdone : ∀ x, x ∈ m.ready ∨ x ∈ m.completed → ReportedDone reqs x := fun x hx =>
    hx.elim (fun hx => (h.ready x hx).2) (h.completed x)
  rcases Verif.Wait.process_spec m with ⟨h1, h2, h3, h4, -, h6, -⟩ | ⟨r, a, h1, h2, h3, h4, h5⟩
  · refine ⟨⟨by rw [h2]; exact h.completed, fun x hx => ⟨hall x (h4.mem_iff.1 (by simp [hx])), hdone x (h6 x hx)⟩,
      fun x hx => hall x (h4.mem_iff.1 (by simp [hx])), Or.inr (by rw [h3]; exact hnum)⟩, by simp [h1]⟩
  · rw [h1, h5]
    refine ⟨⟨h.completed, by simp, by simp, Or.inl rfl⟩, fun p hp => ?_⟩
    simp only [List.mem_singleton] at hp
    subst hp
    obtain ⟨src, ids, h6⟩ := hnum
    exact ⟨fun x hx => ⟨hall x (h3.mem_iff.1 (by simp [hx])), hdone x (h4 x hx)⟩, fun x hx => hall x (h3.mem_iff.1 (by simp [hx])),
      src, ids, m.num, h6, h2⟩

/-- The number of reports of finished tasks. -/
def countDone (reqs : List (Nat × Req)) : Nat := (reqs.filter fun q => match q.2 with | .taskDone _ => true | _ => false).length

theorem countDone_snoc (reqs : List (Nat × Req)) (q : Nat × Req) : countDone (reqs ++ [q]) = countDone reqs + countDone [q] := by
  simp [countDone, List.filter_append]

/-- A message to process `d` after the requests `pre` and the request `q` of process `src`: the number of finished tasks so far, reservations
and bytes go to the sender of the request for them; answers to `wait` go to the main process and fit the requests; the signal to
end follows the report of a worker that is ready. -/
def FittingMessage (pre : List (Nat × Req)) (src : Nat) (q : Req) (d : Nat) : Msg → Prop
  | .waited r a => d = 0 ∧ FittingAnswer (pre ++ [(src, q)]) r a
  | .count n => d = src ∧ q = .taskCount ∧ n = countDone pre
  | .reserved _ _ => d = src ∧ ∃ id len, q = .reserve id len
  | .bytes _ _ => d = src ∧ ∃ id, q = .fetch (some id)
  | .shutdown => q = .ready

theorem serve_answers {c : Config} {reqs : List (Nat × Req)} {s : State} {src : Nat} {q : Req} (h : WaitFits reqs s.wait)
    (ht : s.tasks = countDone reqs) :
    (∀ s', (s.serve c src q).1 = .up s' → WaitFits (reqs ++ [(src, q)]) s'.wait ∧ s'.tasks = countDone (reqs ++ [(src, q)])) ∧
    ∀ d m, (d, m) ∈ (s.serve c src q).2 → FittingMessage reqs src q d m := by
  have hm := waitFits_mono [(src, q)] h
  rw [countDone_snoc]
  cases q with
  | taskDone ids =>
    have hw : WaitFits (reqs ++ [(src, .taskDone ids)]) { s.wait with completed := ids.filterMap id ++ s.wait.completed } := by
      refine ⟨fun x hx => ?_, hm.ready, hm.awaited, hm.num⟩
      rcases List.mem_append.1 hx with hx | hx
      · exact ⟨src, ids, by simp, by simpa using hx⟩
      · exact hm.completed x hx
    obtain ⟨h1, h2⟩ := waitFits_process hw
    simp only [State.serve, Verif.Wait.Monitor.taskDone, Phase.up.injEq]
    refine ⟨fun s' e => by subst e; exact ⟨h1, by simp [countDone, ht]⟩, fun d m hmem => ?_⟩
    simp only [waitMsgs, List.mem_map, Prod.mk.injEq] at hmem
    obtain ⟨p, hp, rfl, rfl⟩ := hmem
    exact ⟨rfl, h2 p hp⟩
  | wait ids num =>
    have hw : WaitFits (reqs ++ [(src, .wait ids num)]) { s.wait with awaited := ids, num := num } := by
      exact ⟨hm.completed, hm.ready, fun x hx => ⟨src, ids, num, by simp, hx⟩, Or.inr ⟨src, ids, by simp⟩⟩
    obtain ⟨h1, h2⟩ := waitFits_process hw
    simp only [State.serve, Verif.Wait.Monitor.waitRequest, Phase.up.injEq]
    refine ⟨fun s' e => by subst e; exact ⟨h1, by simp [countDone, ht]⟩, fun d m hmem => ?_⟩
    simp only [waitMsgs, List.mem_map, Prod.mk.injEq] at hmem
    obtain ⟨p, hp, rfl, rfl⟩ := hmem
    exact ⟨rfl, h2 p hp⟩
  | taskCount =>
    simp only [State.serve, Phase.up.injEq, List.mem_singleton, Prod.mk.injEq]
    exact ⟨fun s' e => by subst e; exact ⟨hm, by simp [countDone, ht]⟩, fun d m ⟨h1, h2⟩ => by subst h2; exact ⟨h1, rfl, ht⟩⟩
  | reserve id len =>
    simp only [State.serve]
    split
    · split
      · exact ⟨fun s' e => by cases e; exact ⟨hm, by simp [countDone, ht]⟩, fun d m hmem => by
          simp only [List.mem_singleton, Prod.mk.injEq] at hmem; obtain ⟨rfl, rfl⟩ := hmem; exact ⟨rfl, _, _, rfl⟩⟩
      · exact ⟨fun s' e => (by cases e), by simp⟩
    · exact ⟨fun s' e => (by cases e), by simp⟩
  | fetch o =>
    cases o with
    | none => exact ⟨fun s' e => (by cases e), by simp [State.serve]⟩
    | some id =>
      simp only [State.serve]
      split
      · split
        · exact ⟨fun s' e => by cases e; exact ⟨hm, by simp [countDone, ht]⟩, fun d m hmem => by
            simp only [List.mem_singleton, Prod.mk.injEq] at hmem; obtain ⟨rfl, rfl⟩ := hmem; exact ⟨rfl, _, rfl⟩⟩
        · exact ⟨fun s' e => (by cases e), by simp⟩
      · exact ⟨fun s' e => (by cases e), by simp⟩
  | cleanup l refs =>
    simp only [State.serve]
    split
    · split
      · exact ⟨fun s' e => by cases e; exact ⟨hm, by simp [countDone, ht]⟩, by simp⟩
      · exact ⟨fun s' e => (by cases e), by simp⟩
    · exact ⟨fun s' e => by cases e; exact ⟨hm, by simp [countDone, ht]⟩, by simp⟩
  | ready =>
    simp only [State.serve]
    split
    · refine ⟨fun s' e => (by cases e), fun d m hmem => ?_⟩
      simp only [List.mem_append, List.mem_map, List.mem_singleton, Prod.mk.injEq] at hmem
      rcases hmem with ⟨_, -, -, rfl⟩ | ⟨-, rfl⟩ <;> exact rfl
    · exact ⟨fun s' e => by cases e; exact ⟨hm, by simp [countDone, ht]⟩, by simp⟩
  | shutdown => exact ⟨fun s' e => (by cases e), by simp [State.serve]⟩
  | other => exact ⟨fun s' e => (by cases e), by simp [State.serve]⟩
  | poke i v => exact ⟨fun s' e => by cases e; exact ⟨hm, by simp [countDone, ht]⟩, by simp [State.serve]⟩

/-- C112, positive part: what a monitor answers. In a running monitor, with the requests `pre` so far, every message that follows a
further request fits it. Missing: the requests that end the monitor (`C112_exact_partial`). -/
theorem C112_messages_partial (c : Config) (memLen svcLen : Nat) (pre : List (Nat × Req)) (src : Nat) (q : Req) (s : State)
    (h : ((Phase.up (State.init memLen svcLen)).run c pre).1 = .up s) (d : Nat) (m : Msg) (hm : (d, m) ∈ ((Phase.up s).step c (src, q)).2) :
    FittingMessage pre src q d m := by
  have key : ∀ (reqs done : List (Nat × Req)) (s0 : State), WaitFits done s0.wait → s0.tasks = countDone done →
      ((Phase.up s0).run c reqs).1 = .up s → WaitFits (done ++ reqs) s.wait ∧ s.tasks = countDone (done ++ reqs) := by
    intro reqs
    induction reqs with
    | nil => intro done s0 h1 h2 h3; cases h3; simpa using ⟨h1, h2⟩
    | cons q qs ih =>
      intro done s0 h1 h2 h3
      obtain ⟨src, q⟩ := q
      simp only [Phase.run, Phase.step] at h3
      cases hq : (s0.serve c src q).1 with
      | left => rw [hq, run_not_up c (by simp)] at h3; cases h3
      | raised f => rw [hq, run_not_up c (by simp)] at h3; cases h3
      | up s1 =>
        rw [hq] at h3
        obtain ⟨h4, h5⟩ := (serve_answers (c := c) h1 h2).1 s1 hq
        simpa using ih _ s1 h4 h5 h3
  obtain ⟨h1, h2⟩ := key pre [] (State.init memLen svcLen) ⟨by simp [State.init, Verif.Wait.Monitor.init],
    by simp [State.init, Verif.Wait.Monitor.init], by simp [State.init, Verif.Wait.Monitor.init], Or.inl rfl⟩ rfl h
  exact (serve_answers (c := c) (by simpa using h1) (by simpa using h2)).2 d m hm

/-- The main process waits for one of two references; the second is reported. -/
example : let c : Config := ⟨true, 1, [3, 4], [1]⟩
    (Phase.up (State.init 10 8)).run c [(0, .wait [5, 6] 1), (3, .taskDone [some 6, none]), (4, .taskDone [some 5]), (2, .taskCount)] =
      (.up { State.init 10 8 with wait := ⟨[5, 6], [], [], 1⟩, tasks := 2 }, [(0, .waited [6] [5]), (2, .count 2)]) := rfl

/-! ## What a monitor keeps (C95) -/

theorem loop_completed : ∀ (f i : Nat) (m : Verif.Wait.Monitor), (Verif.Wait.Monitor.loop f i m).1.completed = m.completed
  | 0, _, _ => rfl
  | f + 1, i, m => by
    simp only [Verif.Wait.Monitor.loop]
    split
    · rfl
    · split
      · split
        · exact loop_completed f i _
        · exact loop_completed f i _
      · exact loop_completed f (i + 1) m

theorem process_completed (m : Verif.Wait.Monitor) : m.process.1.completed = m.completed := by
  unfold Verif.Wait.Monitor.process
  split
  · rfl
  · exact loop_completed _ _ _

/-- A monitor keeps the reference of every result for good: after any history, cleanups included, the completed references are exactly those that were
ever reported. (`wait` needs them, but no cleanup removes them, monitor/loop.py:254-259.) -/
theorem C95_monitor_violated (c : Config) (memLen svcLen : Nat) (reqs : List (Nat × Req)) (s : State)
    (hr : ((Phase.up (State.init memLen svcLen)).run c reqs).1 = .up s) (i : Nat) :
    i ∈ s.wait.completed ↔ ∃ src ids, (src, Req.taskDone ids) ∈ reqs ∧ some i ∈ ids := by
  have key : ∀ (reqs : List (Nat × Req)) (s0 : State), ((Phase.up s0).run c reqs).1 = .up s →
      (i ∈ s.wait.completed ↔ i ∈ s0.wait.completed ∨ ∃ src ids, (src, Req.taskDone ids) ∈ reqs ∧ some i ∈ ids) := by
    intro reqs
    induction reqs with
    | nil => intro s0 h; cases h; simp
    | cons q qs ih =>
      intro s0 h
      obtain ⟨src, q⟩ := q
      simp only [Phase.run, Phase.step] at h
      cases hq : (s0.serve c src q).1 with
      | left => rw [hq, run_not_up c (by simp)] at h; cases h
      | raised f => rw [hq, run_not_up c (by simp)] at h; cases h
      | up s1 =>
        rw [hq] at h
        have hs : i ∈ s1.wait.completed ↔ i ∈ s0.wait.completed ∨ ∃ ids, q = .taskDone ids ∧ some i ∈ ids := by
          cases q with
          | taskDone ids =>
            simp only [State.serve, Phase.up.injEq] at hq
            subst hq
            simp only [Verif.Wait.Monitor.taskDone, process_completed, List.mem_append, List.mem_filterMap, id_eq, Req.taskDone.injEq]
            constructor
            · rintro (⟨a, h1, rfl⟩ | h1)
              · exact .inr ⟨ids, rfl, h1⟩
              · exact .inl h1
            · rintro (h1 | ⟨_, rfl, h1⟩)
              · exact .inr h1
              · exact .inl ⟨_, h1, rfl⟩
          | wait ids num =>
            simp only [State.serve, Phase.up.injEq] at hq
            subst hq
            simp [Verif.Wait.Monitor.waitRequest, process_completed]
          | taskCount => simp only [State.serve, Phase.up.injEq] at hq; subst hq; simp
          | reserve id len =>
            simp only [State.serve] at hq
            split at hq
            · split at hq
              · cases hq; simp
              · cases hq
            · cases hq
          | fetch o =>
            cases o with
            | none => simp [State.serve] at hq
            | some id =>
              simp only [State.serve] at hq
              split at hq
              · split at hq
                · cases hq; simp
                · cases hq
              · cases hq
          | cleanup l refs =>
            simp only [State.serve] at hq
            split at hq
            · split at hq
              · cases hq; simp
              · cases hq
            · cases hq; simp
          | ready =>
            simp only [State.serve] at hq
            split at hq
            · cases hq
            · cases hq; simp
          | shutdown => simp [State.serve] at hq
          | other => simp [State.serve] at hq
          | poke j v => simp only [State.serve, Phase.up.injEq] at hq; subst hq; simp
        rw [ih s1 h, hs]
        constructor
        · rintro ((h1 | ⟨ids, rfl, h1⟩) | ⟨a, ids, h1, h2⟩)
          · exact .inl h1
          · exact .inr ⟨src, ids, by simp, h1⟩
          · exact .inr ⟨a, ids, by simp [h1], h2⟩
        · rintro (h1 | ⟨a, ids, h1, h2⟩)
          · exact .inl (.inl h1)
          · rcases List.mem_cons.1 h1 with h1 | h1
            · cases h1; exact .inl (.inr ⟨ids, rfl, h2⟩)
            · exact .inr ⟨a, ids, h1, h2⟩
  rw [key reqs _ hr]
  simp [State.init, Verif.Wait.Monitor.init]

example : (match ((Phase.up (State.init 100 20)).run ⟨false, 1, [2, 3], [1]⟩
    [(2, .taskDone [some 7]), (0, .wait [7] 1), (0, .cleanup [⟨0, 7⟩] [0]), (3, .taskDone [none, some 8])]).1 with
    | .up s => s.wait.completed
    | _ => []) = [8, 7] := by decide

end Verif.Props
