import Verif.Model.Isolation
import Mathlib.Data.List.Induction

/-!
# C111: changing an object does not change what was stored, passed or returned
-/
namespace Verif.Props

open Verif.Isolation

/-! ## Statement -/

/-- The operation makes a reference. -/
def isoMakes : Op → Bool
  | .put _ _ => true
  | .ret _ _ => true
  | _ => false

/-- In the history the reference with this number was made from an object that had this value at that time. -/
def MadeFrom (l : List Op) (id : Nat) (v : Val) : Prop :=
  ∃ l1 l2 p a s, (l = l1 ++ .put p a :: l2 ∨ l = l1 ++ .ret p a :: l2) ∧ l1.countP isoMakes = id ∧
    run .init l1 = some s ∧ s.heap[a]? = some ⟨p, v⟩

/-- Whatever objects the program changes, whoever reads a reference finds the value that was stored or returned, and every task finds
the arguments that were passed: on the MPI backend, on the sequential backend and on the multiprocessing backend. -/
def C111_full : Prop :=
  (∀ l s, run .init l = some s → ∀ x ∈ s.seen, x.got = x.expected) ∧
  (∀ l s, Seq.run .init l = some s → ∀ x ∈ s.seen, x.got = x.expected) ∧
  ∀ l s, Pymp.run .init l = some s → ∀ x ∈ s.seen, x.got = x.expected

/-! ## Histories -/

/-- A history in two parts. -/
theorem isoRun_append (s : State) (l1 l2 : List Op) : run s (l1 ++ l2) = (run s l1).bind fun t => run t l2 := by
  induction l1 generalizing s with
  | nil => rfl
  | cons o l ih =>
    simp only [List.cons_append, run]
    cases step s o with
    | none => rfl
    | some t => simpa using ih t

/-- An entry stays when a list grows. -/
theorem isoKeep {α : Type} {l m : List α} {a : Nat} {c : α} (h : l[a]? = some c) : (l ++ m)[a]? = some c := by
  have := (List.getElem?_eq_some_iff.1 h).1
  rw [List.getElem?_append_left this, h]

/-- An object of a process is an entry of the heap. -/
theorem isoOwn {s : State} {p a : Nat} {v : Val} : s.own p a = some v ↔ s.heap[a]? = some ⟨p, v⟩ := by
  unfold State.own
  cases h : s.heap[a]? with
  | none => simp
  | some c =>
    by_cases e : c.proc = p
    · obtain ⟨q, w⟩ := c
      simp at e
      subst e
      simp
    · obtain ⟨q, w⟩ := c
      simp at e
      simp [e]

/-! ## What the recorded values mean -/

/-- A step only records a new reference if it makes one. -/
theorem isoStep_made {s s' : State} {o : Op} (h : step s o = some s') :
    (isoMakes o = false ∧ s'.made = s.made) ∨
    ∃ p a v, (o = .put p a ∨ o = .ret p a) ∧ s.heap[a]? = some ⟨p, v⟩ ∧ s'.made = s.made ++ [(p, v)] := by
  cases o with
  | create p v => simp [step] at h; subst h; exact .inl ⟨rfl, rfl⟩
  | change p a v =>
    simp only [step, Option.map_eq_some_iff] at h
    obtain ⟨w, _, rfl⟩ := h
    exact .inl ⟨rfl, rfl⟩
  | put p a =>
    simp only [step, Option.map_eq_some_iff] at h
    obtain ⟨w, hw, rfl⟩ := h
    exact .inr ⟨p, a, w, .inl rfl, isoOwn.1 hw, rfl⟩
  | ret p a =>
    simp only [step, Option.map_eq_some_iff] at h
    obtain ⟨w, hw, rfl⟩ := h
    exact .inr ⟨p, a, w, .inr rfl, isoOwn.1 hw, rfl⟩
  | get p id =>
    refine .inl ⟨rfl, ?_⟩
    simp only [step, State.get] at h
    split at h
    · simp at h
    · split at h
      · obtain ⟨w, _, rfl⟩ := Option.map_eq_some_iff.1 h; rfl
      · obtain ⟨w, _, rfl⟩ := Option.map_eq_some_iff.1 h; rfl
  | push p q id =>
    refine .inl ⟨rfl, ?_⟩
    simp only [step, State.push] at h
    split at h
    · simp at h
    · split at h
      · cases h; rfl
      · split at h
        · cases h; rfl
        · obtain ⟨w, _, rfl⟩ := Option.map_eq_some_iff.1 h; rfl
  | submit p q a big =>
    simp only [step, Option.map_eq_some_iff] at h
    obtain ⟨w, _, rfl⟩ := h
    exact .inl ⟨rfl, rfl⟩
  | transfer k =>
    refine .inl ⟨rfl, ?_⟩
    simp only [step] at h
    split at h
    · cases h; rfl
    · simp at h
  | deliver k =>
    refine .inl ⟨rfl, ?_⟩
    simp only [step, State.deliver] at h
    split at h
    · simp at h
    · cases h; rfl
    · cases h; rfl

/-- The number of recorded references. -/
theorem isoRun_count {l : List Op} : ∀ {s s' : State}, run s l = some s' → s'.made.length = s.made.length + l.countP isoMakes := by
  induction l with
  | nil => intro s s' h; cases h; simp
  | cons o l ih =>
    intro s s' h
    simp only [run, Option.bind_eq_some_iff] at h
    obtain ⟨t, ht, h⟩ := h
    have h1 := ih h
    rcases isoStep_made ht with ⟨e, hm⟩ | ⟨p, a, v, e, _, hm⟩
    · rw [h1, hm, List.countP_cons, e]; simp
    · have e' : isoMakes o = true := by rcases e with rfl | rfl <;> rfl
      rw [h1, hm, List.countP_cons, e']; simp; omega

/-- Recorded references stay. -/
theorem isoRun_keeps {l : List Op} : ∀ {s s' : State} {i : Nat} {x : Nat × Val}, run s l = some s' → s.made[i]? = some x →
    s'.made[i]? = some x := by
  induction l with
  | nil => intro s s' i x h hx; cases h; exact hx
  | cons o l ih =>
    intro s s' i x h hx
    simp only [run, Option.bind_eq_some_iff] at h
    obtain ⟨t, ht, h⟩ := h
    refine ih h ?_
    rcases isoStep_made ht with ⟨_, hm⟩ | ⟨p, a, v, _, _, hm⟩
    · rw [hm]; exact hx
    · rw [hm]; exact isoKeep hx

/-- The value recorded for a reference is the value the object had when the reference was made. -/
theorem C111_recorded (l : List Op) (s : State) (h : run .init l = some s) (id : Nat) (v : Val) :
    MadeFrom l id v ↔ ∃ p, s.made[id]? = some (p, v) := by
  constructor
  · rintro ⟨l1, l2, p, a, s1, hl, hn, h1, ha⟩
    refine ⟨p, ?_⟩
    have hc : s1.made.length = id := by
      have := isoRun_count h1
      simp [State.init] at this
      omega
    rcases hl with rfl | rfl
    · rw [isoRun_append, h1] at h
      simp only [Option.bind_some, run, Option.bind_eq_some_iff] at h
      obtain ⟨t, ht, h⟩ := h
      simp only [step, Option.map_eq_some_iff] at ht
      obtain ⟨w, hw, rfl⟩ := ht
      rw [isoOwn, ha] at hw
      cases hw
      exact isoRun_keeps h (by simp [← hc])
    · rw [isoRun_append, h1] at h
      simp only [Option.bind_some, run, Option.bind_eq_some_iff] at h
      obtain ⟨t, ht, h⟩ := h
      simp only [step, Option.map_eq_some_iff] at ht
      obtain ⟨w, hw, rfl⟩ := ht
      rw [isoOwn, ha] at hw
      cases hw
      exact isoRun_keeps h (by simp [← hc])
  · rintro ⟨p, hp⟩
    -- every entry was added by a step
    have key : ∀ (m : List Op) (l0 : List Op) (s0 : State), run .init l0 = some s0 → run s0 m = some s →
        l0 ++ m = l → s0.made.length ≤ id → MadeFrom l id v := by
      intro m
      induction m with
      | nil =>
        intro l0 s0 h0 hm _ hlen
        cases hm
        have := (List.getElem?_eq_some_iff.1 hp).1
        omega
      | cons o m ih =>
        intro l0 s0 h0 hm hl hlen
        simp only [run, Option.bind_eq_some_iff] at hm
        obtain ⟨t, ht, hm⟩ := hm
        have ht0 : run .init (l0 ++ [o]) = some t := by
          rw [isoRun_append, h0]
          simp [run, ht]
        by_cases hlt : t.made.length ≤ id
        · exact ih (l0 ++ [o]) t ht0 hm (by simpa using hl) hlt
        · rcases isoStep_made ht with ⟨_, hmd⟩ | ⟨q, a, w, ho, ha, hmd⟩
          · rw [hmd] at hlt; omega
          · have hid : s0.made.length = id := by rw [hmd] at hlt; simp at hlt; omega
            have hx : s.made[id]? = some (q, w) := isoRun_keeps hm (by rw [hmd, ← hid]; simp)
            rw [hp] at hx
            cases hx
            have hc := isoRun_count h0
            simp only [State.init, List.length_nil, Nat.zero_add] at hc
            refine ⟨l0, m, p, a, s0, ?_, ?_, h0, ha⟩
            · rcases ho with rfl | rfl
              · exact .inl hl.symm
              · exact .inr hl.symm
            · rw [← hc]; exact hid
    exact key l [] .init rfl h rfl (Nat.zero_le _)

/-! ## Violations -/

/-- `get` gives the object that the process keeps: who changes it changes what the next `get` gives. -/
def exIsoGet : List Op := [.create 0 ⟨1, 1⟩, .put 0 0, .get 0 0, .change 0 1 ⟨2, 1⟩, .get 0 0]

/-- The second `get` gives something else than was put. -/
theorem C111_get_violated : ¬C111_full := fun h =>
  absurd (h.1 exIsoGet _ rfl ⟨⟨1, 1⟩, ⟨2, 1⟩⟩) (by decide)

/-- A task changes its argument; a later task in the same worker, with the same reference, finds the changed value, a task in another
worker the original one. -/
def exIsoTask : List Op :=
  [.create 0 ⟨1, 1⟩, .put 0 0, .push 0 2 0, .push 0 3 0, .deliver 0, .deliver 0, .get 2 0, .change 2 1 ⟨5, 1⟩, .get 2 0, .get 3 0]

/-- The same call has two results, depending on the worker. -/
theorem C111_task_violated :
    ∃ s, run .init exIsoTask = some s ∧ s.seen = [⟨⟨1, 1⟩, ⟨1, 1⟩⟩, ⟨⟨1, 1⟩, ⟨5, 1⟩⟩, ⟨⟨1, 1⟩, ⟨1, 1⟩⟩] :=
  ⟨_, rfl, by decide⟩

/-- A method returns an object that the actor keeps and changes later; a task in the same worker finds the changed value. -/
def exIsoResult : List Op := [.create 2 ⟨1, 1⟩, .ret 2 0, .change 2 0 ⟨7, 1⟩, .get 2 0]

/-- The result is not what was returned. -/
theorem C111_result_violated : ∃ s, run .init exIsoResult = some s ∧ s.seen = [⟨⟨1, 1⟩, ⟨7, 1⟩⟩] := ⟨_, rfl, by decide⟩

/-- A task changes its argument and passes the reference on in a nested call. -/
def exIsoForward : List Op :=
  [.create 0 ⟨1, 1⟩, .put 0 0, .push 0 2 0, .deliver 0, .get 2 0, .change 2 1 ⟨5, 1⟩, .push 2 3 0, .deliver 0, .get 3 0]

/-- The nested call finds a value that was never put. -/
theorem C111_forward_violated :
    ∃ s, run .init exIsoForward = some s ∧ s.seen = [⟨⟨1, 1⟩, ⟨1, 1⟩⟩, ⟨⟨1, 1⟩, ⟨5, 1⟩⟩] := ⟨_, rfl, by decide⟩

/-- A large argument is changed after the task was submitted, while the library still reads it. -/
def exIsoSubmit : List Op := [.create 0 ⟨1, 1⟩, .submit 0 2 0 true, .change 0 0 ⟨2, 2⟩, .deliver 0]

/-- The task finds a mixture of both values. -/
theorem C111_submit_violated : ∃ s, run .init exIsoSubmit = some s ∧ s.seen = [⟨⟨1, 1⟩, ⟨1, 2⟩⟩] := ⟨_, rfl, by decide⟩

/-- On the sequential backend even a change of the object that was put is seen. -/
theorem C111_pyseq_violated :
    ∃ l s, Seq.run .init l = some s ∧ ∃ x ∈ s.seen, x.got ≠ x.expected :=
  ⟨[.create ⟨1, 1⟩, .put 0, .change 0 ⟨2, 1⟩, .get 0], _, rfl, ⟨⟨1, 1⟩, ⟨2, 1⟩⟩, by decide, by decide⟩

/-! ## What holds on the MPI backend -/

/-- A store or a message that is not complete refers to the object. -/
def IsoKept (s : State) (a : Nat) : Prop := (∃ p id, s.data p id = some a) ∨ ∃ q t e, Msg.arg q t (.live a) e ∈ s.net

/-- The program only changes objects that no store and no incomplete message refers to. -/
def IsoCareful : State → List Op → Prop
  | _, [] => True
  | s, o :: l => (∀ p a v, o = .change p a v → ¬IsoKept s a) ∧ ∀ s', step s o = some s' → IsoCareful s' l

/-- Stores and messages agree with the recorded values. -/
structure IsoInv (s : State) : Prop where
  data : ∀ p id a, s.data p id = some a → ∃ v o, s.heap[a]? = some ⟨p, v⟩ ∧ s.made[id]? = some (o, v)
  cache : ∀ p id v, s.cache p id = some v → ∃ o, s.made[id]? = some (o, v)
  msg : ∀ p q id v, Msg.data p q id v ∈ s.net → ∃ o, s.made[id]? = some (o, v)
  copied : ∀ q t n e, Msg.arg q t (.copied n) e ∈ s.net → (⟨t, n⟩ : Val) = e
  live : ∀ q t a e, Msg.arg q t (.live a) e ∈ s.net → ∃ c, s.heap[a]? = some c ∧ (⟨t, c.val.buf⟩ : Val) = e
  seen : ∀ x ∈ s.seen, x.got = x.expected

/-- What the receiver of an argument gets. -/
theorem IsoInv.arg {s : State} (h : IsoInv s) {q t : Nat} {b : Buf} {e : Val} (hm : Msg.arg q t b e ∈ s.net) :
    (⟨t, s.bufVal b⟩ : Val) = e := by
  cases b with
  | copied n => exact h.copied _ _ _ _ hm
  | live a =>
    obtain ⟨c, hc, he⟩ := h.live _ _ _ _ hm
    simp only [State.bufVal, hc]
    exact he

/-- Assignment to a dictionary, read back. -/
theorem isoUpd {α : Type} {f : Nat → Nat → Option α} {p i q j : Nat} {v w : α} (h : upd f p i v q j = some w) :
    (q = p ∧ j = i ∧ w = v) ∨ f q j = some w := by
  unfold upd at h
  split at h
  · rename_i e
    cases h
    exact .inl ⟨e.1, e.2, rfl⟩
  · exact .inr h

/-- Careful steps keep the agreement. -/
theorem IsoInv.step {s s' : State} {o : Op} (h : IsoInv s) (hc : ∀ p a v, o = .change p a v → ¬IsoKept s a)
    (hs : step s o = some s') : IsoInv s' := by
  cases o with
  | create p v =>
    cases hs
    exact ⟨fun p id a e => let ⟨v, o, h1, h2⟩ := h.data p id a e; ⟨v, o, isoKeep h1, h2⟩, h.cache, h.msg, h.copied,
      fun q t a e hm => let ⟨c, h1, h2⟩ := h.live q t a e hm; ⟨c, isoKeep h1, h2⟩, h.seen⟩
  | change p a v =>
    have hk := hc p a v rfl
    simp only [Isolation.step, Option.map_eq_some_iff] at hs
    obtain ⟨w, hw, rfl⟩ := hs
    refine ⟨fun p' id a' e => ?_, h.cache, h.msg, h.copied, fun q t a' e hm => ?_, h.seen⟩
    · obtain ⟨v', o, h1, h2⟩ := h.data p' id a' e
      have : a ≠ a' := fun e' => hk (.inl ⟨p', id, e' ▸ e⟩)
      exact ⟨v', o, by simpa [List.getElem?_set_ne this] using h1, h2⟩
    · obtain ⟨c, h1, h2⟩ := h.live q t a' e hm
      have : a ≠ a' := fun e' => hk (.inr ⟨q, t, e, e' ▸ hm⟩)
      exact ⟨c, by simpa [List.getElem?_set_ne this] using h1, h2⟩
  | put p a =>
    simp only [Isolation.step, Option.map_eq_some_iff] at hs
    obtain ⟨w, hw, rfl⟩ := hs
    refine ⟨fun p' id a' e => let ⟨v, o, h1, h2⟩ := h.data p' id a' e; ⟨v, o, h1, isoKeep h2⟩, fun p' id v e => ?_,
      fun p' q id v hm => let ⟨o, h1⟩ := h.msg p' q id v hm; ⟨o, isoKeep h1⟩, h.copied, h.live, h.seen⟩
    rcases isoUpd e with ⟨rfl, rfl, rfl⟩ | e
    · exact ⟨p', by simp⟩
    · exact let ⟨o, h1⟩ := h.cache p' id v e; ⟨o, isoKeep h1⟩
  | ret p a =>
    simp only [Isolation.step, Option.map_eq_some_iff] at hs
    obtain ⟨w, hw, rfl⟩ := hs
    refine ⟨fun p' id a' e => ?_, fun p' id v e => ?_,
      fun p' q id v hm => let ⟨o, h1⟩ := h.msg p' q id v hm; ⟨o, isoKeep h1⟩, h.copied, h.live, h.seen⟩
    · rcases isoUpd e with ⟨rfl, rfl, rfl⟩ | e
      · exact ⟨w, p', isoOwn.1 hw, by simp⟩
      · exact let ⟨v, o, h1, h2⟩ := h.data p' id a' e; ⟨v, o, h1, isoKeep h2⟩
    · rcases isoUpd e with ⟨rfl, rfl, rfl⟩ | e
      · exact ⟨p', by simp⟩
      · exact let ⟨o, h1⟩ := h.cache p' id v e; ⟨o, isoKeep h1⟩
  | get p id =>
    simp only [Isolation.step, State.get] at hs
    split at hs
    · simp at hs
    · rename_i o e hmade
      split at hs
      · rename_i a ha
        obtain ⟨v, hv, rfl⟩ := Option.map_eq_some_iff.1 hs
        refine ⟨h.data, h.cache, h.msg, h.copied, h.live, fun x hx => ?_⟩
        rcases List.mem_append.1 hx with hx | hx
        · exact h.seen x hx
        · obtain ⟨v', o', h1, h2⟩ := h.data p id a ha
          rw [isoOwn, h1] at hv
          rw [hmade] at h2
          simp at hx hv h2
          subst hx
          simp [← hv, h2.2]
      · obtain ⟨v, hv, rfl⟩ := Option.map_eq_some_iff.1 hs
        obtain ⟨o', h2⟩ := h.cache p id v hv
        refine ⟨fun p' id' a' e' => ?_, h.cache, h.msg, h.copied,
          fun q t a e' hm => let ⟨c, h1, h2⟩ := h.live q t a e' hm; ⟨c, isoKeep h1, h2⟩, fun x hx => ?_⟩
        · rcases isoUpd e' with ⟨rfl, rfl, rfl⟩ | e'
          · exact ⟨v, o', by simp, h2⟩
          · exact let ⟨v, o, h1, h2⟩ := h.data p' id' a' e'; ⟨v, o, isoKeep h1, h2⟩
        · rcases List.mem_append.1 hx with hx | hx
          · exact h.seen x hx
          · rw [hmade] at h2
            simp at hx h2
            subst hx
            exact h2.2.symm
  | push p q id =>
    simp only [Isolation.step, State.push] at hs
    split at hs
    · simp at hs
    · split at hs
      · cases hs; exact h
      · split at hs
        · rename_i v hv
          cases hs
          obtain ⟨o, hm0⟩ := h.cache p id v hv
          refine ⟨h.data, h.cache, fun p' q' id' v' hm => ?_, fun q' t n e hm => ?_, fun q' t a e hm => ?_, h.seen⟩
          · rcases List.mem_append.1 hm with hm | hm
            · exact h.msg _ _ _ _ hm
            · simp at hm
              obtain ⟨rfl, rfl, rfl, rfl⟩ := hm
              exact ⟨o, hm0⟩
          · exact h.copied q' t n e (by simpa using hm)
          · exact h.live q' t a e (by simpa using hm)
        · obtain ⟨v, hv, rfl⟩ := Option.map_eq_some_iff.1 hs
          obtain ⟨a, ha, hv⟩ := Option.bind_eq_some_iff.1 hv
          obtain ⟨v', o, h1, h2⟩ := h.data p id a ha
          rw [isoOwn, h1] at hv
          simp at hv
          subst hv
          refine ⟨h.data, fun p' id' w e => ?_, fun p' q' id' w hm => ?_, fun q' t n e hm => ?_, fun q' t a e hm => ?_, h.seen⟩
          · rcases isoUpd e with ⟨rfl, rfl, rfl⟩ | e
            · exact ⟨o, h2⟩
            · exact h.cache _ _ _ e
          · rcases List.mem_append.1 hm with hm | hm
            · exact h.msg _ _ _ _ hm
            · simp at hm
              obtain ⟨rfl, rfl, rfl, rfl⟩ := hm
              exact ⟨o, h2⟩
          · exact h.copied q' t n e (by simpa using hm)
          · exact h.live q' t a e (by simpa using hm)
  | submit p q a big =>
    simp only [Isolation.step, Option.map_eq_some_iff] at hs
    obtain ⟨w, hw, rfl⟩ := hs
    rw [isoOwn] at hw
    refine ⟨h.data, h.cache, fun p' q' id' v' hm => h.msg p' q' id' v' (by simpa using hm), fun q' t n e hm => ?_,
      fun q' t a' e hm => ?_, h.seen⟩
    · rcases List.mem_append.1 hm with hm | hm
      · exact h.copied _ _ _ _ hm
      · cases big <;> simp at hm
        obtain ⟨rfl, rfl, rfl, rfl⟩ := hm
        rfl
    · rcases List.mem_append.1 hm with hm | hm
      · exact h.live _ _ _ _ hm
      · cases big <;> simp at hm
        obtain ⟨rfl, rfl, rfl, rfl⟩ := hm
        exact ⟨_, hw, rfl⟩
  | transfer k =>
    simp only [Isolation.step] at hs
    split at hs
    · rename_i q t b e hk
      cases hs
      have hk' := List.mem_of_getElem? hk
      have he := h.arg hk'
      refine ⟨h.data, h.cache, fun p' q' id' v' hm => ?_, fun q' t' n e' hm => ?_, fun q' t' a e' hm => ?_, h.seen⟩
      · rcases List.mem_or_eq_of_mem_set hm with hm | hm
        · exact h.msg _ _ _ _ hm
        · simp at hm
      · rcases List.mem_or_eq_of_mem_set hm with hm | hm
        · exact h.copied _ _ _ _ hm
        · simp at hm
          obtain ⟨rfl, rfl, rfl, rfl⟩ := hm
          exact he
      · rcases List.mem_or_eq_of_mem_set hm with hm | hm
        · exact h.live _ _ _ _ hm
        · simp at hm
    · simp at hs
  | deliver k =>
    simp only [Isolation.step, State.deliver] at hs
    split at hs
    · simp at hs
    · rename_i p q id v hk
      cases hs
      obtain ⟨o, ho⟩ := h.msg _ _ _ _ (List.mem_of_getElem? hk)
      refine ⟨fun p' id' a' e' => ?_, h.cache, fun p' q' id' v' hm => h.msg _ _ _ _ (List.mem_of_mem_eraseIdx hm),
        fun q' t n e hm => h.copied _ _ _ _ (List.mem_of_mem_eraseIdx hm),
        fun q' t a e hm => let ⟨c, h1, h2⟩ := h.live _ _ _ _ (List.mem_of_mem_eraseIdx hm); ⟨c, isoKeep h1, h2⟩, h.seen⟩
      rcases isoUpd e' with ⟨rfl, rfl, rfl⟩ | e'
      · exact ⟨v, o, by simp, ho⟩
      · exact let ⟨v, o, h1, h2⟩ := h.data p' id' a' e'; ⟨v, o, isoKeep h1, h2⟩
    · rename_i q t b e hk
      cases hs
      have he := h.arg (List.mem_of_getElem? hk)
      refine ⟨fun p' id' a' e' => let ⟨v, o, h1, h2⟩ := h.data p' id' a' e'; ⟨v, o, isoKeep h1, h2⟩, h.cache,
        fun p' q' id' v' hm => h.msg _ _ _ _ (List.mem_of_mem_eraseIdx hm),
        fun q' t n e hm => h.copied _ _ _ _ (List.mem_of_mem_eraseIdx hm),
        fun q' t a e hm => let ⟨c, h1, h2⟩ := h.live _ _ _ _ (List.mem_of_mem_eraseIdx hm); ⟨c, isoKeep h1, h2⟩, fun x hx => ?_⟩
      rcases List.mem_append.1 hx with hx | hx
      · exact h.seen x hx
      · simp at hx
        subst hx
        exact he

/-- Careful histories keep the agreement. -/
theorem IsoInv.run {l : List Op} : ∀ {s s' : State}, IsoInv s → IsoCareful s l → Isolation.run s l = some s' → IsoInv s' := by
  induction l with
  | nil => intro s s' h _ hr; cases hr; exact h
  | cons o l ih =>
    intro s s' h hc hr
    simp only [Isolation.run, Option.bind_eq_some_iff] at hr
    obtain ⟨t, ht, hr⟩ := hr
    exact ih (h.step hc.1 ht) (hc.2 t ht) hr

/-- The agreement at the start. -/
theorem IsoInv.init : IsoInv .init := by
  constructor <;> intros <;> simp_all [State.init]

/-- The part that holds on the MPI backend: as long as the program only changes objects that no store and no incomplete message refers
to, everybody finds what was stored, returned or passed. -/
theorem C111_mpi_partial (l : List Op) (s : State) (hr : run .init l = some s) (hc : IsoCareful .init l) :
    ∀ x ∈ s.seen, x.got = x.expected := (IsoInv.init.run hc hr).seen

/-- The stores of the process that made a reference. -/
structure IsoMaker (s : State) : Prop where
  cached : ∀ (id p : Nat) v, s.made[id]? = some (p, v) → s.cache p id = some v
  sent : ∀ (p q id : Nat) v w, Msg.data p q id v ∈ s.net → s.made[id]? = some (p, w) → v = w
  cacheId : ∀ p id v, s.cache p id = some v → id < s.made.length
  dataId : ∀ p id a, s.data p id = some a → id < s.made.length
  netId : ∀ p q id v, Msg.data p q id v ∈ s.net → id < s.made.length

/-- A new reference is unknown to all stores. -/
theorem isoNew {m : List (Nat × Val)} {x : Nat × Val} {id : Nat} {y : Nat × Val} (h : (m ++ [x])[id]? = some y) :
    m[id]? = some y ∨ (id = m.length ∧ y = x) := by
  rcases Nat.lt_or_ge id m.length with e | e
  · rw [List.getElem?_append_left e] at h; exact .inl h
  · rw [List.getElem?_append_right e] at h
    have : id - m.length = 0 := by
      have := (List.getElem?_eq_some_iff.1 h).1
      simp at this
      omega
    rw [this] at h
    simp at h
    exact .inr ⟨by omega, h.symm⟩

/-- Every step keeps this. -/
theorem IsoMaker.step {s s' : State} {o : Op} (h : IsoMaker s) (hs : step s o = some s') : IsoMaker s' := by
  cases o with
  | create p v => cases hs; exact ⟨h.cached, h.sent, h.cacheId, h.dataId, h.netId⟩
  | change p a v =>
    simp only [Isolation.step, Option.map_eq_some_iff] at hs
    obtain ⟨w, hw, rfl⟩ := hs
    exact ⟨h.cached, h.sent, h.cacheId, h.dataId, h.netId⟩
  | put p a =>
    simp only [Isolation.step, Option.map_eq_some_iff] at hs
    obtain ⟨w, hw, rfl⟩ := hs
    refine ⟨fun id p' v hm => ?_, fun p' q id v w' hn hm => ?_, fun p' id v e => ?_, fun p' id a' e => ?_, fun p' q id v hn => ?_⟩
    · rcases isoNew hm with hm | ⟨rfl, e⟩
      · have := (List.getElem?_eq_some_iff.1 hm).1
        have h1 := h.cached id p' v hm
        simp only [upd]
        rw [if_neg (by omega)]
        exact h1
      · cases e; simp [upd]
    · have := h.netId _ _ _ _ hn
      rcases isoNew hm with hm | ⟨rfl, e⟩
      · exact h.sent _ _ _ _ _ hn hm
      · omega
    · simp only [List.length_append, List.length_singleton]
      rcases isoUpd e with ⟨_, rfl, _⟩ | e
      · omega
      · have := h.cacheId _ _ _ e; omega
    · have := h.dataId _ _ _ e; simp; omega
    · have := h.netId _ _ _ _ hn; simp; omega
  | ret p a =>
    simp only [Isolation.step, Option.map_eq_some_iff] at hs
    obtain ⟨w, hw, rfl⟩ := hs
    refine ⟨fun id p' v hm => ?_, fun p' q id v w' hn hm => ?_, fun p' id v e => ?_, fun p' id a' e => ?_, fun p' q id v hn => ?_⟩
    · rcases isoNew hm with hm | ⟨rfl, e⟩
      · have := (List.getElem?_eq_some_iff.1 hm).1
        have h1 := h.cached id p' v hm
        simp only [upd]
        rw [if_neg (by omega)]
        exact h1
      · cases e; simp [upd]
    · have := h.netId _ _ _ _ hn
      rcases isoNew hm with hm | ⟨rfl, e⟩
      · exact h.sent _ _ _ _ _ hn hm
      · omega
    · simp only [List.length_append, List.length_singleton]
      rcases isoUpd e with ⟨_, rfl, _⟩ | e
      · omega
      · have := h.cacheId _ _ _ e; omega
    · simp only [List.length_append, List.length_singleton]
      rcases isoUpd e with ⟨_, rfl, _⟩ | e
      · omega
      · have := h.dataId _ _ _ e; omega
    · have := h.netId _ _ _ _ hn; simp; omega
  | get p id =>
    simp only [Isolation.step, State.get] at hs
    split at hs
    · simp at hs
    · split at hs
      · obtain ⟨v, hv, rfl⟩ := Option.map_eq_some_iff.1 hs
        exact ⟨h.cached, h.sent, h.cacheId, h.dataId, h.netId⟩
      · obtain ⟨v, hv, rfl⟩ := Option.map_eq_some_iff.1 hs
        refine ⟨h.cached, h.sent, h.cacheId, fun p' id' a' e => ?_, h.netId⟩
        rcases isoUpd e with ⟨_, rfl, _⟩ | e
        · exact h.cacheId _ _ _ hv
        · exact h.dataId _ _ _ e
  | push p q id =>
    simp only [Isolation.step, State.push] at hs
    split at hs
    · simp at hs
    · split at hs
      · cases hs; exact h
      · split at hs
        · rename_i v hv
          cases hs
          refine ⟨h.cached, fun p' q' id' v' w hn hm => ?_, h.cacheId, h.dataId, fun p' q' id' v' hn => ?_⟩
          · rcases List.mem_append.1 hn with hn | hn
            · exact h.sent _ _ _ _ _ hn hm
            · simp at hn
              obtain ⟨rfl, rfl, rfl, rfl⟩ := hn
              have := h.cached _ _ _ hm
              rw [hv] at this
              exact Option.some.inj this
          · rcases List.mem_append.1 hn with hn | hn
            · exact h.netId _ _ _ _ hn
            · simp at hn
              obtain ⟨rfl, rfl, rfl, rfl⟩ := hn
              exact h.cacheId _ _ _ hv
        · rename_i hnone
          obtain ⟨v, hv, rfl⟩ := Option.map_eq_some_iff.1 hs
          obtain ⟨a, ha, hv⟩ := Option.bind_eq_some_iff.1 hv
          have hlt := h.dataId _ _ _ ha
          have hno : ∀ w, s.made[id]? ≠ some (p, w) := fun w hm => by
            have := h.cached _ _ _ hm
            rw [hnone] at this
            cases this
          refine ⟨fun id' p' v' hm => ?_, fun p' q' id' v' w hn hm => ?_, fun p' id' v' e => ?_, h.dataId, fun p' q' id' v' hn => ?_⟩
          · have := h.cached _ _ _ hm
            simp only [upd]
            rw [if_neg]
            · exact this
            · rintro ⟨rfl, rfl⟩; exact hno _ hm
          · rcases List.mem_append.1 hn with hn | hn
            · exact h.sent _ _ _ _ _ hn hm
            · simp at hn
              obtain ⟨rfl, rfl, rfl, rfl⟩ := hn
              exact absurd hm (hno _)
          · rcases isoUpd e with ⟨_, rfl, _⟩ | e
            · exact hlt
            · exact h.cacheId _ _ _ e
          · rcases List.mem_append.1 hn with hn | hn
            · exact h.netId _ _ _ _ hn
            · simp at hn
              obtain ⟨rfl, rfl, rfl, rfl⟩ := hn
              exact hlt
  | submit p q a big =>
    simp only [Isolation.step, Option.map_eq_some_iff] at hs
    obtain ⟨w, hw, rfl⟩ := hs
    exact ⟨h.cached, fun p' q' id v w' hn hm => h.sent p' q' id v w' (by simpa using hn) hm, h.cacheId, h.dataId,
      fun p' q' id v hn => h.netId p' q' id v (by simpa using hn)⟩
  | transfer k =>
    simp only [Isolation.step] at hs
    split at hs
    · cases hs
      have key : ∀ {p q id v a b c d}, Msg.data p q id v ∈ s.net.set k (Msg.arg a b c d) → Msg.data p q id v ∈ s.net := by
        intro p q id v a b c d hm
        rcases List.mem_or_eq_of_mem_set hm with hm | hm
        · exact hm
        · simp at hm
      exact ⟨h.cached, fun p' q' id v w' hn hm => h.sent p' q' id v w' (key hn) hm, h.cacheId, h.dataId,
        fun p' q' id v hn => h.netId p' q' id v (key hn)⟩
    · simp at hs
  | deliver k =>
    simp only [Isolation.step, State.deliver] at hs
    split at hs
    · simp at hs
    · rename_i p q id v hk
      cases hs
      refine ⟨h.cached, fun p' q' id v w' hn hm => h.sent p' q' id v w' (List.mem_of_mem_eraseIdx hn) hm, h.cacheId, fun p' id' a' e => ?_,
        fun p' q' id v hn => h.netId p' q' id v (List.mem_of_mem_eraseIdx hn)⟩
      rcases isoUpd e with ⟨_, rfl, _⟩ | e
      · exact h.netId _ _ _ _ (List.mem_of_getElem? hk)
      · exact h.dataId _ _ _ e
    · cases hs
      exact ⟨h.cached, fun p' q' id v w' hn hm => h.sent p' q' id v w' (List.mem_of_mem_eraseIdx hn) hm, h.cacheId, h.dataId,
        fun p' q' id v hn => h.netId p' q' id v (List.mem_of_mem_eraseIdx hn)⟩

/-- Every history keeps this. -/
theorem IsoMaker.run {l : List Op} : ∀ {s s' : State}, IsoMaker s → Isolation.run s l = some s' → IsoMaker s' := by
  induction l with
  | nil => intro s s' h hr; cases hr; exact h
  | cons o l ih =>
    intro s s' h hr
    simp only [Isolation.run, Option.bind_eq_some_iff] at hr
    obtain ⟨t, ht, hr⟩ := hr
    exact ih (h.step ht) hr

/-- What the process that stored or returned a value sends to others is this value, whatever is changed where. -/
theorem C111_sent_partial (l : List Op) (s : State) (hr : run .init l = some s) (p q id : Nat) (v w : Val)
    (hm : Msg.data p q id v ∈ s.net) (hmade : s.made[id]? = some (p, w)) : v = w :=
  (IsoMaker.run (s := .init) (by constructor <;> intros <;> simp_all [State.init]) hr).sent p q id v w hm hmade

/-- The first read in the process that put a value gives this value, whatever was changed before. -/
theorem C111_first_partial (l : List Op) (s s' : State) (hr : run .init l = some s) (p id : Nat) (w : Val)
    (hmade : s.made[id]? = some (p, w)) (hfirst : s.data p id = none) (hg : step s (.get p id) = some s') :
    s'.seen = s.seen ++ [⟨w, w⟩] := by
  have h := (IsoMaker.run (s := .init) (by constructor <;> intros <;> simp_all [State.init]) hr).cached id p w hmade
  simp [step, State.get, hmade, hfirst, h] at hg
  rw [← hg]

/-! ## The sequential backend -/

/-- The program only changes objects that the store does not hold. -/
def SeqCareful : Seq.State → List Seq.Op → Prop
  | _, [] => True
  | s, o :: l => (∀ a v, o = .change a v → ∀ e ∈ s.store, e.1 ≠ a) ∧ ∀ s', Seq.step s o = some s' → SeqCareful s' l

/-- The part that holds on the sequential backend. -/
theorem C111_pyseq_partial (l : List Seq.Op) (s : Seq.State) (hr : Seq.run .init l = some s) (hc : SeqCareful .init l) :
    ∀ x ∈ s.seen, x.got = x.expected := by
  have key : ∀ (l : List Seq.Op) (s s' : Seq.State), (∀ e ∈ s.store, s.heap[e.1]? = some e.2) → (∀ x ∈ s.seen, x.got = x.expected) →
      SeqCareful s l → Seq.run s l = some s' → ∀ x ∈ s'.seen, x.got = x.expected := by
    intro l
    induction l with
    | nil => intro s s' _ h2 _ hr; cases hr; exact h2
    | cons o l ih =>
      intro s s' h1 h2 hc hr
      simp only [Seq.run, Option.bind_eq_some_iff] at hr
      obtain ⟨t, ht, hr⟩ := hr
      refine ih t s' ?_ ?_ (hc.2 t ht) hr
      · cases o with
        | create v => cases ht; exact fun e he => isoKeep (h1 e he)
        | change a v =>
          simp only [Seq.step, Option.map_eq_some_iff] at ht
          obtain ⟨w, _, rfl⟩ := ht
          intro e he
          have := (hc.1 a v rfl e he).symm
          simpa [List.getElem?_set_ne this] using h1 e he
        | put a =>
          simp only [Seq.step, Option.map_eq_some_iff] at ht
          obtain ⟨w, hw, rfl⟩ := ht
          intro e he
          rcases List.mem_append.1 he with he | he
          · exact h1 e he
          · simp at he; subst he; exact hw
        | get id =>
          simp only [Seq.step, Option.bind_eq_some_iff, Option.map_eq_some_iff] at ht
          obtain ⟨e, _, w, _, rfl⟩ := ht
          exact h1
      · cases o with
        | create v => cases ht; exact h2
        | change a v =>
          simp only [Seq.step, Option.map_eq_some_iff] at ht
          obtain ⟨w, _, rfl⟩ := ht
          exact h2
        | put a =>
          simp only [Seq.step, Option.map_eq_some_iff] at ht
          obtain ⟨w, hw, rfl⟩ := ht
          exact h2
        | get id =>
          simp only [Seq.step, Option.bind_eq_some_iff, Option.map_eq_some_iff] at ht
          obtain ⟨e, he, w, hw, rfl⟩ := ht
          intro x hx
          rcases List.mem_append.1 hx with hx | hx
          · exact h2 x hx
          · simp at hx
            subst hx
            have := h1 e (List.mem_of_getElem? he)
            rw [hw] at this
            exact Option.some.inj this
  exact key l .init s (by simp [Seq.State.init]) (by simp [Seq.State.init]) hc hr

/-! ## The multiprocessing backend -/

/-- On the multiprocessing backend the claim holds without conditions. -/
theorem C111_pymp (l : List Pymp.Op) (s : Pymp.State) (hr : Pymp.run .init l = some s) : ∀ x ∈ s.seen, x.got = x.expected := by
  have key : ∀ (l : List Pymp.Op) (s s' : Pymp.State), (∀ e ∈ s.store, e.1 = e.2) → (∀ e ∈ s.queue, e.1 = e.2) →
      (∀ x ∈ s.seen, x.got = x.expected) → Pymp.run s l = some s' → ∀ x ∈ s'.seen, x.got = x.expected := by
    intro l
    induction l with
    | nil => intro s s' _ _ h3 hr; cases hr; exact h3
    | cons o l ih =>
      intro s s' h1 h2 h3 hr
      simp only [Pymp.run, Option.bind_eq_some_iff] at hr
      obtain ⟨t, ht, hr⟩ := hr
      cases o with
      | create p v => cases ht; refine ih _ s' ?_ ?_ ?_ hr <;> assumption
      | change p a v =>
        simp only [Pymp.step, Option.map_eq_some_iff] at ht
        obtain ⟨w, _, rfl⟩ := ht
        refine ih _ s' ?_ ?_ ?_ hr <;> assumption
      | put p a =>
        simp only [Pymp.step, Option.map_eq_some_iff] at ht
        obtain ⟨w, _, rfl⟩ := ht
        refine ih _ s' ?_ ?_ ?_ hr
        rotate_left
        · exact h2
        · exact h3
        intro e he
        rcases List.mem_append.1 he with he | he
        · exact h1 e he
        · simp at he; subst he; rfl
      | submit p a =>
        simp only [Pymp.step, Option.map_eq_some_iff] at ht
        obtain ⟨w, _, rfl⟩ := ht
        refine ih _ s' ?_ ?_ ?_ hr
        · exact h1
        rotate_left
        · exact h3
        intro e he
        rcases List.mem_append.1 he with he | he
        · exact h2 e he
        · simp at he; subst he; rfl
      | get p id =>
        simp only [Pymp.step, Option.map_eq_some_iff] at ht
        obtain ⟨e, he, rfl⟩ := ht
        refine ih _ s' ?_ ?_ ?_ hr
        · exact h1
        · exact h2
        intro x hx
        rcases List.mem_append.1 hx with hx | hx
        · exact h3 x hx
        · simp at hx; subst hx; exact h1 e (List.mem_of_getElem? he)
      | start p k =>
        simp only [Pymp.step, Option.map_eq_some_iff] at ht
        obtain ⟨e, he, rfl⟩ := ht
        refine ih _ s' ?_ ?_ ?_ hr
        · exact h1
        · exact fun e he => h2 e (List.mem_of_mem_eraseIdx he)
        intro x hx
        rcases List.mem_append.1 hx with hx | hx
        · exact h3 x hx
        · simp at hx; subst hx; exact h2 e (List.mem_of_getElem? he)
  exact key l .init s (by simp [Pymp.State.init]) (by simp [Pymp.State.init]) (by simp [Pymp.State.init]) hr

/-- Whether an action makes a reference on the multiprocessing backend. -/
def pympMakes : Pymp.Op → Bool
  | .put _ _ => true
  | _ => false

theorem pympRun_append (l m : List Pymp.Op) : ∀ s, Pymp.run s (l ++ m) = (Pymp.run s l).bind fun t => Pymp.run t m := by
  induction l with
  | nil => intro s; rfl
  | cons o l ih =>
    intro s
    simp only [List.cons_append, Pymp.run]
    cases Pymp.step s o with
    | none => rfl
    | some t => exact ih t

theorem pympStore (l : List Pymp.Op) (s : Pymp.State) (hr : Pymp.run .init l = some s) :
    s.store.length = l.countP pympMakes ∧ ∀ (id : Nat) (e : Val × Val), s.store[id]? = some e →
      ∃ l1 l2 q a s1, l = l1 ++ .put q a :: l2 ∧ l1.countP pympMakes = id ∧ Pymp.run .init l1 = some s1 ∧
        s1.heap[a]? = some ⟨q, e.1⟩ := by
  induction l using List.reverseRecOn generalizing s with
  | nil => cases hr; simp [Pymp.State.init]
  | append_singleton l o ih =>
    rw [pympRun_append] at hr
    simp only [Option.bind_eq_some_iff] at hr
    obtain ⟨t, ht, hr⟩ := hr
    simp only [Pymp.run, Option.bind_eq_some_iff, Option.some.injEq, exists_eq_right] at hr
    obtain ⟨h1, h2⟩ := ih t ht
    have keep : s.store = t.store → pympMakes o = false → s.store.length = (l ++ [o]).countP pympMakes ∧
        ∀ (id : Nat) (e : Val × Val), s.store[id]? = some e →
      ∃ l1 l2 q a s1, l ++ [o] = l1 ++ .put q a :: l2 ∧ l1.countP pympMakes = id ∧ Pymp.run .init l1 = some s1 ∧
        s1.heap[a]? = some ⟨q, e.1⟩ := by
      intro he hm
      rw [he]
      refine ⟨by simp [hm, h1], ?_⟩
      intro id e hid
      obtain ⟨l1, l2, q, a, s1, h3, h4⟩ := h2 id e hid
      exact ⟨l1, l2 ++ [o], q, a, s1, by simp [h3], h4⟩
    cases o with
    | create p v => cases hr; exact keep rfl rfl
    | change p a v =>
      simp only [Pymp.step, Option.map_eq_some_iff] at hr
      obtain ⟨w, _, rfl⟩ := hr
      exact keep rfl rfl
    | submit p a =>
      simp only [Pymp.step, Option.map_eq_some_iff] at hr
      obtain ⟨w, _, rfl⟩ := hr
      exact keep rfl rfl
    | get p id =>
      simp only [Pymp.step, Option.map_eq_some_iff] at hr
      obtain ⟨w, _, rfl⟩ := hr
      exact keep rfl rfl
    | start p k =>
      simp only [Pymp.step, Option.map_eq_some_iff] at hr
      obtain ⟨w, _, rfl⟩ := hr
      exact keep rfl rfl
    | put p a =>
      simp only [Pymp.step, Option.map_eq_some_iff] at hr
      obtain ⟨w, hw, rfl⟩ := hr
      refine ⟨by simp [h1, pympMakes], ?_⟩
      intro id e hid
      simp only at hid
      by_cases hlt : id < t.store.length
      · rw [List.getElem?_append_left hlt] at hid
        obtain ⟨l1, l2, q, a', s1, h3, h4⟩ := h2 id e hid
        exact ⟨l1, l2 ++ [.put p a], q, a', s1, by simp [h3], h4⟩
      · rw [List.getElem?_append_right (by omega)] at hid
        obtain ⟨h5, h6⟩ := List.getElem?_eq_some_iff.1 hid
        simp only [List.length_singleton] at h5
        have h7 : id = t.store.length := by omega
        subst h7
        simp at h6
        subst h6
        refine ⟨l, [], p, a, t, rfl, h1.symm, ht, ?_⟩
        simp only [Pymp.State.own, Option.bind_eq_some_iff] at hw
        obtain ⟨c, hc, hw⟩ := hw
        split at hw
        · rename_i hp
          cases hw
          rw [hc, ← hp]
        · simp at hw

/-- C111 on the multiprocessing backend: `get` of the reference made by the `id`-th `put` (counted from 0) gives a new object with the
value that the stored object had when it was put. -/
theorem C111_pymp_made (l : List Pymp.Op) (s s' : Pymp.State) (hr : Pymp.run .init l = some s) (p id : Nat)
    (hg : Pymp.step s (.get p id) = some s') :
    ∃ l1 l2 q a s1 v, l = l1 ++ .put q a :: l2 ∧ l1.countP pympMakes = id ∧ Pymp.run .init l1 = some s1 ∧
      s1.heap[a]? = some ⟨q, v⟩ ∧ s'.heap = s.heap ++ [⟨p, v⟩] ∧ ∃ x, s'.seen = s.seen ++ [x] ∧ x.got = v ∧ x.expected = v := by
  have hall := C111_pymp (l ++ [.get p id]) s' (by rw [pympRun_append, hr]; simp [Pymp.run, hg])
  simp only [Pymp.step, Option.map_eq_some_iff] at hg
  obtain ⟨e, he, rfl⟩ := hg
  obtain ⟨l1, l2, q, a, s1, h1, h2, h3, h4⟩ := (pympStore l s hr).2 id e he
  refine ⟨l1, l2, q, a, s1, e.1, h1, h2, h3, h4, rfl, _, rfl, rfl, ?_⟩
  exact (hall _ (by simp : (⟨e.2, e.1⟩ : Seen) ∈ s.seen ++ [⟨e.2, e.1⟩])).symm

/-- An element and the rest. -/
theorem pympErase : ∀ (l : List (Val × Val)) (k : Nat) (hk : k < l.length), (l[k] :: l.eraseIdx k).Perm l
  | [], k, hk => by simp at hk
  | x :: l, 0, _ => by simp
  | x :: l, k + 1, hk => by
      simp only [List.getElem_cons_succ, List.eraseIdx_cons_succ]
      exact (List.Perm.swap x _ _).trans (List.Perm.cons x (pympErase l k (by simpa using hk)))

/-- The values of the arguments at the submissions of a history, in their order. -/
def pympSubmitted : Pymp.State → List Pymp.Op → List Val
  | _, [] => []
  | s, .submit p a :: l =>
    match s.heap[a]?, Pymp.step s (.submit p a) with
    | some c, some t => c.val :: pympSubmitted t l
    | _, _ => []
  | s, o :: l =>
    match Pymp.step s o with
    | some t => pympSubmitted t l
    | none => []

/-- The values that started tasks found, in their order. -/
def pympStarted : Pymp.State → List Pymp.Op → List Val
  | _, [] => []
  | s, .start p k :: l =>
    match Pymp.step s (.start p k) with
    | some t =>
      match t.heap.getLast? with
      | some c => c.val :: pympStarted t l
      | none => pympStarted t l
    | none => []
  | s, o :: l =>
    match Pymp.step s o with
    | some t => pympStarted t l
    | none => []

/-- C111 on the multiprocessing backend: the tasks that were started found the arguments of the submissions, each once, and what is left
is still in the queues. -/
theorem C111_pymp_tasks (l : List Pymp.Op) (s : Pymp.State) (hr : Pymp.run .init l = some s) :
    (pympStarted .init l ++ s.queue.map Prod.fst).Perm (pympSubmitted .init l) := by
  have key : ∀ (l : List Pymp.Op) (s s' : Pymp.State), Pymp.run s l = some s' →
      (pympStarted s l ++ s'.queue.map Prod.fst).Perm (s.queue.map Prod.fst ++ pympSubmitted s l) := by
    intro l
    induction l with
    | nil => intro s s' hr; cases hr; simp [pympStarted, pympSubmitted]
    | cons o l ih =>
      intro s s' hr
      simp only [Pymp.run, Option.bind_eq_some_iff] at hr
      obtain ⟨t, ht, hr⟩ := hr
      have h := ih t s' hr
      cases o with
      | create p v =>
        simp only [pympStarted, pympSubmitted, ht]
        cases ht
        exact h
      | change p a v =>
        simp only [pympStarted, pympSubmitted, ht]
        simp only [Pymp.step, Option.map_eq_some_iff] at ht
        obtain ⟨w, _, rfl⟩ := ht
        exact h
      | put p a =>
        simp only [pympStarted, pympSubmitted, ht]
        simp only [Pymp.step, Option.map_eq_some_iff] at ht
        obtain ⟨w, _, rfl⟩ := ht
        exact h
      | get p id =>
        simp only [pympStarted, pympSubmitted, ht]
        simp only [Pymp.step, Option.map_eq_some_iff] at ht
        obtain ⟨w, _, rfl⟩ := ht
        exact h
      | submit p a =>
        simp only [pympStarted, pympSubmitted, ht]
        simp only [Pymp.step, Option.map_eq_some_iff] at ht
        obtain ⟨w, hw, rfl⟩ := ht
        simp only [Pymp.State.own, Option.bind_eq_some_iff] at hw
        obtain ⟨c, hc, hw⟩ := hw
        split at hw
        · cases hw
          rw [hc]
          simpa using h
        · simp at hw
      | start p k =>
        simp only [pympStarted, pympSubmitted, ht]
        simp only [Pymp.step, Option.map_eq_some_iff] at ht
        obtain ⟨e, he, rfl⟩ := ht
        simp only [List.getLast?_append, List.getLast?_singleton, Option.some_or, List.cons_append]
        refine (List.Perm.cons _ h).trans ?_
        rw [← List.cons_append]
        refine List.Perm.append_right _ ?_
        obtain ⟨hk, hke⟩ := List.getElem?_eq_some_iff.1 he
        have h2 := (pympErase s.queue k hk).map Prod.fst
        rw [hke] at h2
        simpa using h2
  simpa [Pymp.State.init] using key l .init s hr

example : pympStarted .init [.create 0 ⟨1, 1⟩, .submit 0 0, .change 0 0 ⟨2, 2⟩, .submit 0 0, .start 1 1] = [⟨2, 2⟩] ∧
    pympSubmitted .init [.create 0 ⟨1, 1⟩, .submit 0 0, .change 0 0 ⟨2, 2⟩, .submit 0 0, .start 1 1] = [⟨1, 1⟩, ⟨2, 2⟩] := by decide

/-- Whether an action makes a reference on the sequential backend. -/
def seqMakes : Seq.Op → Bool
  | .put _ => true
  | _ => false

theorem seqRun_append (l m : List Seq.Op) : ∀ s, Seq.run s (l ++ m) = (Seq.run s l).bind fun t => Seq.run t m := by
  induction l with
  | nil => intro s; rfl
  | cons o l ih =>
    intro s
    simp only [List.cons_append, Seq.run]
    cases Seq.step s o with
    | none => rfl
    | some t => exact ih t

theorem seqStore (l : List Seq.Op) (s : Seq.State) (hr : Seq.run .init l = some s) :
    s.store.length = l.countP seqMakes ∧ ∀ (id : Nat) (e : Nat × Val), s.store[id]? = some e →
      ∃ l1 l2, l = l1 ++ .put e.1 :: l2 ∧ l1.countP seqMakes = id := by
  induction l using List.reverseRecOn generalizing s with
  | nil => cases hr; simp [Seq.State.init]
  | append_singleton l o ih =>
    rw [seqRun_append] at hr
    simp only [Option.bind_eq_some_iff] at hr
    obtain ⟨t, ht, hr⟩ := hr
    simp only [Seq.run, Option.bind_eq_some_iff, Option.some.injEq, exists_eq_right] at hr
    obtain ⟨h1, h2⟩ := ih t ht
    have keep : s.store = t.store → seqMakes o = false → s.store.length = (l ++ [o]).countP seqMakes ∧
        ∀ (id : Nat) (e : Nat × Val), s.store[id]? = some e →
      ∃ l1 l2, l ++ [o] = l1 ++ .put e.1 :: l2 ∧ l1.countP seqMakes = id := by
      intro he hm
      rw [he]
      refine ⟨by simp [hm, h1], ?_⟩
      intro id e hid
      obtain ⟨l1, l2, h3, h4⟩ := h2 id e hid
      exact ⟨l1, l2 ++ [o], by simp [h3], h4⟩
    cases o with
    | create v => cases hr; exact keep rfl rfl
    | change a v =>
      simp only [Seq.step, Option.map_eq_some_iff] at hr
      obtain ⟨w, _, rfl⟩ := hr
      exact keep rfl rfl
    | get id =>
      simp only [Seq.step, Option.bind_eq_some_iff, Option.map_eq_some_iff] at hr
      obtain ⟨e, _, w, _, rfl⟩ := hr
      exact keep rfl rfl
    | put a =>
      simp only [Seq.step, Option.map_eq_some_iff] at hr
      obtain ⟨w, hw, rfl⟩ := hr
      refine ⟨by simp [h1, seqMakes], ?_⟩
      intro id e hid
      simp only at hid
      by_cases hlt : id < t.store.length
      · rw [List.getElem?_append_left hlt] at hid
        obtain ⟨l1, l2, h3, h4⟩ := h2 id e hid
        exact ⟨l1, l2 ++ [.put a], by simp [h3], h4⟩
      · rw [List.getElem?_append_right (by omega)] at hid
        obtain ⟨h5, h6⟩ := List.getElem?_eq_some_iff.1 hid
        simp only [List.length_singleton] at h5
        have h7 : id = t.store.length := by omega
        subst h7
        simp at h6
        subst h6
        exact ⟨l, [], rfl, h1.symm⟩

/-- C111 on the sequential backend: `get` of the reference made by the `id`-th `put` (counted from 0) gives that object itself, with the
value it has now. -/
theorem C111_pyseq_made_partial (l : List Seq.Op) (s s' : Seq.State) (hr : Seq.run .init l = some s) (id : Nat)
    (hg : Seq.step s (.get id) = some s') :
    ∃ l1 l2 a v x, l = l1 ++ .put a :: l2 ∧ l1.countP seqMakes = id ∧ s.heap[a]? = some v ∧ s'.seen = s.seen ++ [x] ∧ x.got = v := by
  simp only [Seq.step, Option.bind_eq_some_iff, Option.map_eq_some_iff] at hg
  obtain ⟨e, he, w, hw, rfl⟩ := hg
  obtain ⟨l1, l2, h1, h2⟩ := (seqStore l s hr).2 id e he
  exact ⟨l1, l2, e.1, w, _, h1, h2, hw, rfl, rfl⟩

example : (Seq.run .init [.create ⟨1, 1⟩, .create ⟨3, 3⟩, .put 1, .put 0, .change 0 ⟨4, 4⟩, .get 1]).map (·.seen) =
    some [⟨⟨1, 1⟩, ⟨4, 4⟩⟩] := by decide

/-! ## Examples -/

/-- An object is changed after it was put; the process itself and a worker find the original value. -/
example : ((run .init [.create 0 ⟨1, 1⟩, .put 0 0, .change 0 0 ⟨2, 2⟩, .push 0 2 0, .get 0 0, .deliver 0, .get 2 0]).map (·.seen)) =
    some [⟨⟨1, 1⟩, ⟨1, 1⟩⟩, ⟨⟨1, 1⟩, ⟨1, 1⟩⟩] := by decide

/-- This history is careful. -/
example : IsoCareful .init [.create 0 ⟨1, 1⟩, .put 0 0, .change 0 0 ⟨2, 2⟩, .push 0 2 0] := by
  refine ⟨fun _ _ _ e => (by cases e), fun s h => ?_⟩
  cases h
  refine ⟨fun _ _ _ e => (by cases e), fun s h => ?_⟩
  cases h
  refine ⟨fun _ _ _ e => ?_, fun s h => ?_⟩
  · cases e
    simp [IsoKept, State.init]
  · cases h
    refine ⟨fun _ _ _ e => (by cases e), fun s h => trivial⟩

/-- A large argument that is changed only after its transfer. -/
example : ((run .init [.create 0 ⟨1, 1⟩, .submit 0 2 0 true, .transfer 0, .change 0 0 ⟨2, 2⟩, .deliver 0]).map (·.seen)) =
    some [⟨⟨1, 1⟩, ⟨1, 1⟩⟩] := by decide

/-- A worker changes a result it returned; the message to the main process still has the original value. -/
example : ((run .init [.create 2 ⟨1, 1⟩, .ret 2 0, .change 2 0 ⟨7, 1⟩, .push 2 0 0]).map (·.net)) =
    some [.data 2 0 0 ⟨1, 1⟩] := by decide

/-- The reference of this history was made from the value before the change. -/
example : MadeFrom [.create 0 ⟨1, 1⟩, .put 0 0, .change 0 0 ⟨2, 2⟩] 0 ⟨1, 1⟩ :=
  ⟨[.create 0 ⟨1, 1⟩], [.change 0 0 ⟨2, 2⟩], 0, 0, _, .inl rfl, rfl, rfl, rfl⟩

/-- The sequential backend with changes of objects that are not stored. -/
example : (Seq.run .init [.create ⟨1, 1⟩, .create ⟨3, 3⟩, .put 0, .change 1 ⟨4, 4⟩, .get 0]).map (·.seen) =
    some [⟨⟨1, 1⟩, ⟨1, 1⟩⟩] := by decide

/-- The multiprocessing backend: the object is changed after `put` and after the submission, and what a task got is changed as
well. -/
example : (Pymp.run .init [.create 0 ⟨1, 1⟩, .put 0 0, .submit 0 0, .change 0 0 ⟨2, 2⟩, .start 1 0, .get 1 0, .change 1 2 ⟨9, 9⟩,
    .get 1 0]).map (·.seen) = some [⟨⟨1, 1⟩, ⟨1, 1⟩⟩, ⟨⟨1, 1⟩, ⟨1, 1⟩⟩, ⟨⟨1, 1⟩, ⟨1, 1⟩⟩] := by decide

end Verif.Props
