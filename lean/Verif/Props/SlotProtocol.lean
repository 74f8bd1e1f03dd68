import Verif.Lemmas.SlotProtocol

/-! Properties C10, C11 and C79: publication, reading and reference counting of shared metadata. -/
namespace Verif.Props
open Verif.Slot

/-- C10: while a slot is emptied of an old object and the object `id` is published into it, with any interleaving of single
word accesses, a reader that accepts `id` finds its start offset and a count of at least one in the slot, from that
moment on and for as long as the publisher holds its reference. -/
theorem C10_accepted_object_is_published (old : Words) (id : DataId) (first : Nat) (acts : List Act)
    (hold : ¬ (old.worker = id.rank ∧ old.number = id.num))
    (hacc : (run id (startSt old id first) acts).reader = .done true) :
    (run id (startSt old id first) acts).words.first = first ∧
    1 ≤ (run id (startSt old id first) acts).words.refs := by
  obtain ⟨k, h⟩ := pinv_run acts (pinv_start old id first id)
  rcases h.acc hacc with h1 | ⟨h1, -⟩
  · exact absurd h1 hold
  · have hle := h.le
    have hk : k = 7 ∨ k = 8 := by omega
    rw [h.words]
    rcases hk with rfl | rfl <;> (refine ⟨rfl, ?_⟩; simp only [wordsAt]; omega)

/-- A schedule in which the reader accepts before the last word is written: the old object has the same worker. -/
example : ¬ ((⟨1, 4, 0, 0⟩ : Words).worker = (1 : Nat) ∧ (⟨1, 4, 0, 0⟩ : Words).number = (5 : Nat)) ∧
    run ⟨1, 5⟩ (startSt ⟨1, 4, 0, 0⟩ ⟨1, 5⟩ 30)
      [.read, .write, .write, .write, .write, .write, .write, .write, .read] =
    { words := ⟨-1, 5, 30, 1⟩, todo := [.worker 1], reader := .done true, extra := 0 } := by decide

/-- C79, full statement: a lock-free check accepts an object only if the slot held it or holds it. -/
def C79_full : Prop :=
  ∀ (old : Words) (pub tgt : DataId) (first : Nat) (acts : List Act),
    (run tgt (startSt old pub first) acts).reader = .done true →
    (old.worker = tgt.rank ∧ old.number = tgt.num) ∨ pub = tgt

/-- The code violates C79: the worker word is read from the old object (1,4), the number word from the new object
(2,5), and the check accepts (1,5), which was never in the slot. -/
theorem C79_violated : ¬ C79_full := by
  intro h
  have := h ⟨1, 4, 0, 0⟩ ⟨2, 5⟩ ⟨1, 5⟩ 30
    [.read, .write, .write, .write, .write, .write, .write, .write, .write, .read] (by decide)
  revert this
  decide

/-- C79, proved part: the check can be wrong only by combining the worker of the old object with the number of the
new one. Missing: that combination (see `C79_violated`). -/
theorem C79_check_partial (old : Words) (pub tgt : DataId) (first : Nat) (acts : List Act)
    (hmix : ¬ (old.worker = tgt.rank ∧ pub.num = tgt.num ∧ pub.rank ≠ tgt.rank))
    (hacc : (run tgt (startSt old pub first) acts).reader = .done true) :
    (old.worker = tgt.rank ∧ old.number = tgt.num) ∨ pub = tgt := by
  obtain ⟨k, h⟩ := pinv_run acts (pinv_start old pub first tgt)
  rcases h.acc hacc with h1 | ⟨-, h2, h3⟩
  · exact Or.inl h1
  · right
    cases pub; cases tgt
    simp only at h2 h3 hmix
    simp only [DataId.mk.injEq]
    omega

example : (run ⟨2, 5⟩ (startSt ⟨1, 4, 0, 0⟩ ⟨2, 5⟩ 30)
    [.write, .write, .write, .write, .write, .write, .write, .write, .read, .read]).reader = .done true := by decide

/-- C79, exactly: a lock-free check of the slot for an object can succeed if and only if the slot held the object, or the new object
has its number and one of the two objects has its worker. So the wrong answer of `C79_violated` is possible for every old and new object
of this kind. -/
theorem C79_exactly_partial (old : Words) (pub tgt : DataId) (first : Nat) :
    (∃ acts, (run tgt (startSt old pub first) acts).reader = .done true) ↔
      (old.worker = tgt.rank ∧ old.number = tgt.num) ∨ (pub.num = tgt.num ∧ (old.worker = tgt.rank ∨ pub.rank = tgt.rank)) := by
  constructor
  · rintro ⟨acts, hacc⟩
    obtain ⟨k, h⟩ := pinv_run acts (pinv_start old pub first tgt)
    rcases h.acc hacc with h1 | ⟨-, h2⟩
    · exact .inl h1
    · exact .inr h2
  · rintro (⟨h1, h2⟩ | ⟨h1, h2 | h2⟩)
    · exact ⟨[.read, .read], by simp [run, step, startSt, h1, h2]⟩
    · exact ⟨[.read, .write, .write, .write, .write, .write, .write, .write, .write, .read],
        by simp [run, step, startSt, deleteWrites, publishWrites, W.apply, h1, h2]⟩
    · exact ⟨[.write, .write, .write, .write, .write, .write, .write, .write, .read, .read],
        by simp [run, step, startSt, deleteWrites, publishWrites, W.apply, h1, h2]⟩

/-- The check for (1,5) can succeed while (1,4) is replaced by (2,5), and cannot while it is replaced by (2,6). -/
example : (∃ acts, (run ⟨1, 5⟩ (startSt ⟨1, 4, 0, 0⟩ ⟨2, 5⟩ 30) acts).reader = .done true) ∧
    ¬ ∃ acts, (run ⟨1, 5⟩ (startSt ⟨1, 4, 0, 0⟩ ⟨2, 6⟩ 30) acts).reader = .done true := by
  rw [C79_exactly_partial, C79_exactly_partial]
  decide

/-- C11, full statement: whenever the slot holds an object, its count is the number of registrations of this object
that have not been finalized. -/
def C11_full : Prop :=
  ∀ (ops : List Op) (id : DataId), holds (Life.init.run ops).words id = true →
    (Life.init.run ops).words.refs = ((Life.init.run ops).holders.filter (· == id)).length

/-- The code violates C11: a process checks (1,1) and is delayed before its increment; the last holder goes, the object is
cleaned up, the slot is reused for (1,2); the delayed increment counts for (1,2). -/
theorem C11_violated : ¬ C11_full := by
  intro h
  have := h [.publish ⟨1, 1⟩ 0, .check ⟨1, 1⟩, .finalize ⟨1, 1⟩, .cleanup ⟨1, 1⟩, .publish ⟨1, 2⟩ 0,
    .incr ⟨1, 1⟩] ⟨1, 2⟩ (by decide)
  revert this
  decide

/-- C11, proved part: if no cleanup happens between the check and the increment of some process, the count equals the number
of outstanding registrations, all of which are for the object in the slot; in particular the object is in the
slot as long as anybody is registered. Missing: the race of `C11_violated`. -/
theorem C11_refcount_partial (ops : List Op) (hq : QuietCleanups Life.init ops) :
    let s := Life.init.run ops
    (∀ id, holds s.words id = true → s.words.refs = s.holders.length ∧ ∀ x ∈ s.holders, x = id) ∧
    (∀ x ∈ s.holders, holds s.words x = true ∧ 0 < s.words.refs) := by
  have h := linv_run ops (s := Life.init) ⟨Or.inl ⟨rfl, rfl, rfl⟩⟩ hq
  intro s
  obtain ⟨h⟩ := h
  refine ⟨?_, ?_⟩
  · intro id hid
    rcases h with ⟨h1, -⟩ | ⟨id0, h1, h2, -, h4⟩
    · have : holds s.words id = false := by show holds (Life.init.run ops).words id = false; rw [h1]; exact holds_empty id
      rw [this] at hid; simp at hid
    · have := holds_unique h1 hid
      subst this
      exact ⟨h4, h2⟩
  · intro x hx
    rcases h with ⟨-, h2, -⟩ | ⟨id0, h1, h2, -, h4⟩
    · have : s.holders = [] := h2
      rw [this] at hx; simp at hx
    · have e := h2 x hx
      subst e
      refine ⟨h1, ?_⟩
      have : 0 < s.holders.length := List.length_pos_of_mem hx
      have h4' : s.words.refs = s.holders.length := h4
      omega

/-- Three holders come and go, the object is cleaned up and the slot is reused. -/
example : QuietCleanups Life.init [.publish ⟨1, 1⟩ 0, .check ⟨1, 1⟩, .check ⟨1, 1⟩, .incr ⟨1, 1⟩, .finalize ⟨1, 1⟩,
      .incr ⟨1, 1⟩, .cleanup ⟨1, 1⟩, .finalize ⟨1, 1⟩, .finalize ⟨1, 1⟩, .cleanup ⟨1, 1⟩, .publish ⟨1, 2⟩ 0] ∧
    Life.init.run [.publish ⟨1, 1⟩ 0, .check ⟨1, 1⟩, .check ⟨1, 1⟩, .incr ⟨1, 1⟩, .finalize ⟨1, 1⟩,
      .incr ⟨1, 1⟩, .cleanup ⟨1, 1⟩, .finalize ⟨1, 1⟩, .finalize ⟨1, 1⟩, .cleanup ⟨1, 1⟩, .publish ⟨1, 2⟩ 0] =
      ⟨⟨1, 2, 0, 1⟩, [⟨1, 2⟩], []⟩ := by
  constructor
  · simp [QuietCleanups, Life.step, Life.init, holds, emptyWords]
  · decide

/-- C11, what holds for all histories in which no object is published twice, the race included: the count is never below the number of
registrations of the object in the slot, so a cleanup changes nothing while one of them is there. Missing: it can be above
(`C11_violated`), then the object is never cleaned up. -/
theorem C11_never_below_partial (ops : List Op) (hn : (ops.filterMap fun | .publish id _ => some id | _ => none).Nodup) (id : DataId)
    (hh : holds (Life.init.run ops).words id = true) :
    ((Life.init.run ops).holders.count id : Int) ≤ (Life.init.run ops).words.refs ∧
    (id ∈ (Life.init.run ops).holders → ∀ x, (Life.init.run ops).step (.cleanup x) = Life.init.run ops) := by
  have h := covers_run ops (s := Life.init) hn
    ⟨fun x hx => (by rw [show Life.init.words = emptyWords from rfl, holds_empty] at hx; cases hx),
      fun x _ => ⟨by simp [Life.init], by simp [Life.init], holds_empty x⟩⟩
  refine ⟨h.le id hh, fun hm x => ?_⟩
  have := h.le id hh
  have hpos := List.count_pos_iff.2 hm
  simp only [Life.step]
  rw [if_neg]
  rintro ⟨-, h2⟩
  omega

/-- The race: the process that is late registers for an object that is gone; the object now in the slot has one reference too many and stays
when its only holder goes. -/
example : Life.init.run [.publish ⟨1, 1⟩ 0, .check ⟨1, 1⟩, .finalize ⟨1, 1⟩, .cleanup ⟨1, 1⟩, .publish ⟨1, 2⟩ 0, .incr ⟨1, 1⟩,
      .finalize ⟨1, 2⟩, .cleanup ⟨1, 2⟩] = ⟨⟨1, 2, 0, 1⟩, [⟨1, 1⟩], []⟩ ∧
    Life.init.run [.publish ⟨1, 1⟩ 0, .check ⟨1, 1⟩, .finalize ⟨1, 1⟩, .cleanup ⟨1, 1⟩, .incr ⟨1, 1⟩, .publish ⟨1, 2⟩ 0,
      .cleanup ⟨1, 2⟩] = ⟨⟨1, 2, 0, 1⟩, [⟨1, 2⟩, ⟨1, 1⟩], []⟩ := by decide

end Verif.Props
