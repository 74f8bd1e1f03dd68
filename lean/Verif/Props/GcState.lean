import Verif.Model.GcState

/-! Deserialization and the garbage collector. -/
namespace Verif.Props
open Verif.GcState

/-! ## C115 -/

/-- The full claim: deserialization leaves the collector as it was, and the collector is off while it runs. -/
def C115_full : Prop :=
  ∀ (w : Work) (before : Bool), (deserialize w before).gc = before ∧ ∀ b ∈ (deserialize w before).seen, b = false

/-- Violation: after an exception the collector stays off. -/
theorem C115_exception_violated : ¬ C115_full := fun h => absurd (h .fail true).1 (by decide)

/-- Violation: a program that switched the collector off finds it on. -/
theorem C115_switched_off_violated : ¬ C115_full := fun h => absurd (h .done false).1 (by decide)

/-- Violation: after a deserialization within a deserialization the outer one goes on with the collector on. -/
theorem C115_nested_violated : ¬ C115_full := fun h =>
  absurd ((h (.nested (.alloc .done) false (.alloc .done)) true).2 true (by decide)) (by decide)

/-- User code that restores objects does not switch the collector and does not deserialize. -/
def isPlain : Work → Bool
  | .done => true
  | .fail => true
  | .alloc rest => isPlain rest
  | .switch _ _ => false
  | .nested _ _ _ => false

/-- Plain work does not touch the collector. -/
theorem unpack_plain : ∀ (w : Work) (g : Bool), isPlain w = true → (unpack w g).gc = g ∧ ∀ b ∈ (unpack w g).seen, b = g
  | .done, g, _ => by simp [unpack]
  | .fail, g, _ => by simp [unpack]
  | .alloc rest, g, h => by
    obtain ⟨h1, h2⟩ := unpack_plain rest g h
    refine ⟨h1, fun b hb => ?_⟩
    rcases List.mem_cons.1 hb with rfl | hb
    · rfl
    · exact h2 b hb
  | .switch _ _, _, h => by simp [isPlain] at h
  | .nested _ _ _, _, h => by simp [isPlain] at h

/-- Partial: every deserialization that succeeds leaves the collector on, whatever user code does during it. Missing: exceptions,
and programs that switched the collector off. -/
theorem C115_success_partial (w : Work) (before : Bool) (h : (deserialize w before).ok = true) : (deserialize w before).gc = true := by
  unfold deserialize close at *
  split at h
  · rename_i hk; simp [hk]
  · rename_i hk; exact absurd h hk

/-- Partial: without user code that switches the collector or deserializes itself, the collector is off during the
deserialization, and afterwards it is as before exactly if it was on and there was no exception, or off and there was one.
Missing: the other cases. -/
theorem C115_exact_partial (w : Work) (before : Bool) (h : isPlain w = true) :
    (∀ b ∈ (deserialize w before).seen, b = false) ∧
      ((deserialize w before).gc = before ↔ (deserialize w before).ok = before) := by
  obtain ⟨h1, h2⟩ := unpack_plain w false h
  unfold deserialize close
  split
  · rename_i hk
    exact ⟨h2, by simp [hk]⟩
  · rename_i hk
    exact ⟨h2, by simp [h1, hk]⟩

/-- The number of allocations of plain work, and whether it ends without an exception. -/
def plainAllocations : Work → Nat
  | .alloc rest => plainAllocations rest + 1
  | _ => 0

/-- Plain work ends without an exception. -/
def endsPlainly : Work → Bool
  | .alloc rest => endsPlainly rest
  | .done => true
  | _ => false

/-- Plain work in detail. -/
theorem unpack_plain_eq : ∀ (w : Work) (g : Bool), isPlain w = true →
    unpack w g = ⟨g, endsPlainly w, List.replicate (plainAllocations w) g⟩
  | .done, _, _ => rfl
  | .fail, _, _ => rfl
  | .alloc rest, g, h => by
    rw [unpack, unpack_plain_eq rest g h]
    simp [endsPlainly, plainAllocations, List.replicate_succ]
  | .switch _ _, _, h => by simp [isPlain] at h
  | .nested _ _ _, _, h => by simp [isPlain] at h

/-- User code that switches the collector is obeyed until the end of the deserialization, where it is switched on unless there
was an exception. -/
theorem C115_user_code_partial (w : Work) (on before : Bool) (h : isPlain w = true) :
    deserialize (.switch on w) before = ⟨if endsPlainly w then true else on, endsPlainly w, List.replicate (plainAllocations w) on⟩ := by
  simp only [deserialize, unpack, unpack_plain_eq w on h, close]
  split <;> simp_all

/-- A deserialization within a deserialization runs with the collector off even if user code has switched it on before; the rest
of the outer one runs with the collector on if the inner one succeeded, and off if it raised and the exception was caught. An
exception that is not caught ends the outer one, with the collector off. -/
theorem C115_nested_partial (inner rest : Work) (on caught before : Bool) (hi : isPlain inner = true) (hr : isPlain rest = true) :
    (endsPlainly inner = true ∨ caught = true →
      (deserialize (.switch on (.nested inner caught rest)) before).seen =
        List.replicate (plainAllocations inner) false ++ List.replicate (plainAllocations rest) (endsPlainly inner)) ∧
    (endsPlainly inner = false → caught = false →
      deserialize (.switch on (.nested inner caught rest)) before =
        ⟨false, false, List.replicate (plainAllocations inner) false⟩) := by
  constructor
  · intro h
    cases he : endsPlainly inner <;> cases hk : endsPlainly rest <;>
      simp_all [deserialize, unpack, unpack_plain_eq, close]
  · intro h1 h2
    simp [deserialize, unpack, unpack_plain_eq, close, h1, h2, hi]

example : deserialize (.switch true (.alloc .fail)) false = ⟨true, false, [true]⟩ ∧
    (deserialize (.switch true (.nested (.alloc .done) false (.alloc .done))) true).seen = [false, true] ∧
    (deserialize (.switch true (.nested (.alloc .fail) true (.alloc .done))) true).seen = [false, false] := by decide

/-- After several deserializations the state of the collector tells whether the last one succeeded: one failed `get` switches
the collector off until the next successful one. -/
theorem C115_last (before : Bool) (ws : List Work) (w : Work) (h : isPlain w = true) :
    several before (ws ++ [w]) = (deserialize w before).ok := by
  have key : ∀ (ws : List Work) (g : Bool), several g (ws ++ [w]) = (deserialize w before).ok := by
    intro ws
    induction ws with
    | nil =>
      intro g
      obtain ⟨h1, -⟩ := unpack_plain w false h
      simp only [List.nil_append, several, deserialize, close]
      split
      · rename_i hk; simp [hk]
      · rename_i hk; simp [h1, hk]
    | cons v vs ih => intro g; exact ih _
  exact key ws before

example : deserialize (.alloc (.alloc .done)) true = ⟨true, true, [false, false]⟩ ∧
    deserialize (.nested (.alloc .fail) true (.alloc .done)) true = ⟨true, true, [false, false]⟩ ∧
    deserialize (.nested (.alloc .done) false (.alloc .fail)) true = ⟨true, false, [false, true]⟩ ∧
    several true [.done, .alloc .fail] = false ∧ several true [.fail, .alloc .done] = true := by decide

end Verif.Props
