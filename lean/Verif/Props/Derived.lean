import Verif.Spec.Derived

/-! References in containers of derived classes (C130). -/
namespace Verif.Derived
open Verif.Spec.Derived

variable {val : Nat → Obj}

theorem unwrapList_map : ∀ xs, unwrapList xs = xs.map unwrap
  | [] => rfl
  | x :: xs => by simp [unwrapList, unwrapList_map xs]

theorem materializeList_map : ∀ xs, materializeList val xs = xs.map (materialize val)
  | [] => rfl
  | x :: xs => by simp [materializeList, materializeList_map xs]

theorem everywhereList_map : ∀ xs, everywhereList val xs = xs.map (everywhere val)
  | [] => rfl
  | x :: xs => by simp [everywhereList, everywhereList_map xs]

theorem pushedList_flatMap : ∀ xs, pushedList xs = xs.flatMap pushed
  | [] => rfl
  | x :: xs => by simp [pushedList, pushedList_flatMap xs]

theorem found_box_false (k : Kind) (xs : List Obj) : found val (.box false k xs) = .box false k (xs.map (found val)) := by
  simp [found, unwrap, materialize, unwrapList_map, materializeList_map, found]

theorem found_box_true (k : Kind) (xs : List Obj) : found val (.box true k xs) = .box true k xs := by
  simp [found, unwrap, materialize]

theorem everywhere_box (d : Bool) (k : Kind) (xs : List Obj) : everywhere val (.box d k xs) = .box d k (xs.map (everywhere val)) := by
  simp [everywhere, everywhereList_map]

theorem at?_box {d : Bool} {k : Kind} {xs : List Obj} {i : Nat} {path : List Nat} {x : Obj} (h : xs[i]? = some x) :
    at? (.box d k xs) (i :: path) = (at? x path).map fun r => (r.1, d || r.2) := by
  simp [at?, h]

/-- What is at a position after the replacement everywhere. -/
theorem at?_everywhere : ∀ (path : List Nat) (o r : Obj) (b : Bool), at? o path = some (r, b) →
    at? (everywhere val o) path = some (everywhere val r, b)
  | [], o, r, b, h => by simp only [at?, Option.some.injEq, Prod.mk.injEq] at h ⊢; simp [h.1, h.2]
  | i :: path, .box d k xs, r, b, h => by
      rw [everywhere_box]
      cases hx : xs[i]? with
      | none => simp [at?, hx] at h
      | some x =>
        rw [at?_box hx, Option.map_eq_some_iff] at h
        obtain ⟨⟨r', b'⟩, h1, h2⟩ := h
        simp only [Prod.mk.injEq] at h2
        rw [at?_box (x := everywhere val x) (by simp [hx]), at?_everywhere path x r' b' h1]
        simp [← h2.1, h2.2]
  | _ :: _, .other _, _, _, h => by simp [at?] at h
  | _ :: _, .wrap _, _, _, h => by simp [at?] at h
  | _ :: _, .ref _, _, _, h => by simp [at?] at h

/-- What a function finds at a position. -/
theorem at?_found : ∀ (path : List Nat) (o r : Obj) (b : Bool), at? o path = some (r, b) →
    at? (found val o) path = some (if b then r else found val r, b)
  | [], o, r, b, h => by
      simp only [at?, Option.some.injEq, Prod.mk.injEq] at h ⊢
      obtain ⟨rfl, rfl⟩ := h
      simp
  | i :: path, .box true k xs, r, b, h => by
      rw [found_box_true]
      have hb : b = true := by
        cases hx : xs[i]? with
        | none => simp [at?, hx] at h
        | some x =>
          rw [at?_box hx, Option.map_eq_some_iff] at h
          obtain ⟨r', h1, h2⟩ := h
          simp at h2
          exact h2.2
      rw [h]; simp [hb]
  | i :: path, .box false k xs, r, b, h => by
      rw [found_box_false]
      cases hx : xs[i]? with
      | none => simp [at?, hx] at h
      | some x =>
        rw [at?_box hx, Option.map_eq_some_iff] at h
        obtain ⟨⟨r', b'⟩, h1, h2⟩ := h
        simp only [Bool.false_or, Prod.mk.injEq] at h2
        obtain ⟨rfl, rfl⟩ := h2
        rw [at?_box (x := found val x) (by simp [hx]), at?_found path x r' b' h1]
        simp
  | _ :: _, .other _, _, _, h => by simp [at?] at h
  | _ :: _, .wrap _, _, _, h => by simp [at?] at h
  | _ :: _, .ref _, _, _, h => by simp [at?] at h

mutual
/-- Without references nothing is replaced. -/
theorem everywhere_none : ∀ (o : Obj), (∀ path r b, at? o path = some (r, b) → ∀ id, r ≠ .wrap id ∧ r ≠ .ref id) →
    everywhere val o = o
  | .other n, _ => rfl
  | .wrap id, h => absurd rfl (h [] (.wrap id) false rfl id).1
  | .ref id, h => absurd rfl (h [] (.ref id) false rfl id).2
  | .box d k xs, h => by
      rw [everywhere_box, everywhere_noneList xs (fun i x hi path r b hr => h (i :: path) r (d || b) (by rw [at?_box hi, hr]; rfl))]
/-- The same for the elements. -/
theorem everywhere_noneList : ∀ (xs : List Obj),
    (∀ (i : Nat) x, xs[i]? = some x → ∀ path r b, at? x path = some (r, b) → ∀ id, r ≠ .wrap id ∧ r ≠ .ref id) →
    xs.map (everywhere val) = xs
  | [], _ => rfl
  | x :: xs, h => by
      rw [List.map_cons, everywhere_none x (fun path r b hr => h 0 x (by simp) path r b hr),
        everywhere_noneList xs (fun i y hi => h (i + 1) y (by simpa using hi))]
end

mutual
/-- Without references below derived containers everything is replaced. -/
theorem found_all : ∀ (o : Obj), (∀ path r, at? o path = some (r, true) → ∀ id, r ≠ .wrap id ∧ r ≠ .ref id) →
    found val o = everywhere val o
  | .other n, _ => rfl
  | .wrap id, _ => rfl
  | .ref id, _ => rfl
  | .box true k xs, h => by
      rw [found_box_true, everywhere_box, everywhere_noneList xs (fun i x hi path r b hr => h (i :: path) r (by rw [at?_box hi, hr]; rfl))]
  | .box false k xs, h => by
      rw [found_box_false, everywhere_box, found_allList xs (fun i x hi path r hr => h (i :: path) r (by rw [at?_box hi, hr]; rfl))]
/-- The same for the elements. -/
theorem found_allList : ∀ (xs : List Obj),
    (∀ (i : Nat) x, xs[i]? = some x → ∀ path r, at? x path = some (r, true) → ∀ id, r ≠ .wrap id ∧ r ≠ .ref id) →
    xs.map (found val) = xs.map (everywhere val)
  | [], _ => rfl
  | x :: xs, h => by
      rw [List.map_cons, List.map_cons, found_all x (fun path r hr => h 0 x (by simp) path r hr),
        found_allList xs (fun i y hi => h (i + 1) y (by simpa using hi))]
end

mutual
/-- What is pushed of an object that is sent as it is. -/
theorem mem_pushed : ∀ (o : Obj) (id : Nat), id ∈ pushed o ↔ ∃ path b, at? o path = some (.ref id, b)
  | .other n, id => by
      simp only [pushed, List.not_mem_nil, false_iff, not_exists]
      intro path b h; cases path <;> simp [at?] at h
  | .wrap i, id => by
      simp only [pushed, List.not_mem_nil, false_iff, not_exists]
      intro path b h; cases path <;> simp [at?] at h
  | .ref i, id => by
      simp only [pushed, List.mem_singleton]
      constructor
      · rintro rfl; exact ⟨[], false, rfl⟩
      · rintro ⟨path, b, h⟩
        cases path with
        | nil => simp [at?] at h; exact h.1.symm
        | cons i p => simp [at?] at h
  | .box d k xs, id => by
      rw [pushed, mem_pushedList xs id]
      constructor
      · rintro ⟨i, x, hi, path, b, h⟩
        exact ⟨i :: path, d || b, by rw [at?_box hi, h]; rfl⟩
      · rintro ⟨path, b, h⟩
        cases path with
        | nil => simp [at?] at h
        | cons i p =>
          cases hx : xs[i]? with
          | none => simp [at?, hx] at h
          | some x =>
            rw [at?_box hx, Option.map_eq_some_iff] at h
            obtain ⟨⟨r', b'⟩, h1, h2⟩ := h
            simp only [Prod.mk.injEq] at h2
            exact ⟨i, x, hx, p, b', by rw [h1, h2.1]⟩
/-- The same for the elements. -/
theorem mem_pushedList : ∀ (xs : List Obj) (id : Nat), id ∈ pushedList xs ↔
    ∃ (i : Nat) (x : Obj), xs[i]? = some x ∧ ∃ path b, at? x path = some (.ref id, b)
  | [], id => by simp [pushedList]
  | x :: xs, id => by
      rw [pushedList, List.mem_append, mem_pushed x id, mem_pushedList xs id]
      constructor
      · rintro (h | ⟨i, y, hi, h⟩)
        · exact ⟨0, x, by simp, h⟩
        · exact ⟨i + 1, y, by simpa using hi, h⟩
      · rintro ⟨i, y, hi, h⟩
        cases i with
        | zero => simp at hi; subst hi; exact Or.inl h
        | succ i => exact Or.inr ⟨i, y, by simpa using hi, h⟩
end

mutual
/-- Where the data IDs of the stripped object are. -/
theorem mem_arrives : ∀ (o : Obj) (id : Nat), id ∈ pushed (unwrap o) ↔
    (∃ path, at? o path = some (.wrap id, false)) ∨ ∃ path b, at? o path = some (.ref id, b)
  | .other n, id => by
      simp only [unwrap, pushed, List.not_mem_nil, false_iff]
      rintro (⟨path, h⟩ | ⟨path, b, h⟩) <;> cases path <;> simp [at?] at h
  | .wrap i, id => by
      simp only [unwrap, pushed, List.mem_singleton]
      constructor
      · rintro rfl; exact Or.inl ⟨[], rfl⟩
      · rintro (⟨path, h⟩ | ⟨path, b, h⟩) <;> cases path <;> simp [at?] at h
        exact h.symm
  | .ref i, id => by
      simp only [unwrap, pushed, List.mem_singleton]
      constructor
      · rintro rfl; exact Or.inr ⟨[], false, rfl⟩
      · rintro (⟨path, h⟩ | ⟨path, b, h⟩) <;> cases path <;> simp [at?] at h
        exact h.1.symm
  | .box true k xs, id => by
      rw [unwrap, mem_pushed]
      constructor
      · exact Or.inr
      · rintro (⟨path, h⟩ | h)
        · cases path with
          | nil => simp [at?] at h
          | cons i p =>
            cases hx : xs[i]? with
            | none => simp [at?, hx] at h
            | some x =>
              rw [at?_box hx, Option.map_eq_some_iff] at h
              obtain ⟨r', h1, h2⟩ := h
              simp at h2
        · exact h
  | .box false k xs, id => by
      rw [unwrap, pushed, mem_arrivesList xs id]
      constructor
      · rintro ⟨i, x, hi, ⟨path, h⟩ | ⟨path, b, h⟩⟩
        · exact Or.inl ⟨i :: path, by rw [at?_box hi, h]; rfl⟩
        · exact Or.inr ⟨i :: path, b, by rw [at?_box hi, h]; rfl⟩
      · rintro (⟨path, h⟩ | ⟨path, b, h⟩)
        all_goals
          cases path with
          | nil => simp [at?] at h
          | cons i p =>
            cases hx : xs[i]? with
            | none => simp [at?, hx] at h
            | some x =>
              rw [at?_box hx, Option.map_eq_some_iff] at h
              obtain ⟨⟨r', b'⟩, h1, h2⟩ := h
              simp only [Bool.false_or, Prod.mk.injEq] at h2
              obtain ⟨rfl, rfl⟩ := h2
              first
              | exact ⟨i, x, hx, Or.inl ⟨p, h1⟩⟩
              | exact ⟨i, x, hx, Or.inr ⟨p, _, h1⟩⟩
/-- The same for the elements. -/
theorem mem_arrivesList : ∀ (xs : List Obj) (id : Nat), id ∈ pushedList (unwrapList xs) ↔ ∃ (i : Nat) (x : Obj), xs[i]? = some x ∧
    ((∃ path, at? x path = some (.wrap id, false)) ∨ ∃ path b, at? x path = some (.ref id, b))
  | [], id => by simp [unwrapList, pushedList]
  | x :: xs, id => by
      rw [unwrapList, pushedList, List.mem_append, mem_arrives x id, mem_arrivesList xs id]
      constructor
      · rintro (h | ⟨i, y, hi, h⟩)
        · exact ⟨0, x, by simp, h⟩
        · exact ⟨i + 1, y, by simpa using hi, h⟩
      · rintro ⟨i, y, hi, h⟩
        cases i with
        | zero => simp at hi; subst hi; exact Or.inl h
        | succ i => exact Or.inr ⟨i, y, by simpa using hi, h⟩
end

end Verif.Derived

namespace Verif.Props
open Verif.Spec.Derived

/-- C130, the full statement: a remote function finds the values of all references in its arguments, in containers of any class, and the data
of every reference is sent along. -/
def C130_full : Prop := ∀ (val : Nat → Derived.Obj) (o : Derived.Obj), Derived.found val o = everywhere val o ∧
  ∀ id path b, at? o path = some (.wrap id, b) → id ∈ Derived.arrives o

/-- Violation: a reference in a named tuple reaches the function as a reference, and neither the data nor the owner of it is sent. -/
theorem C130_violated : ¬ C130_full := by
  intro h
  have := (h (fun _ => .other 5) (.box true .tuple [.wrap 1])).1
  simp [Derived.found_box_true, everywhere_box_ex] at this
where
  everywhere_box_ex : everywhere (fun _ => .other 5) (.box true .tuple [.wrap 1]) = .box true .tuple [.other 5] := rfl

/-- C130, position by position: below a container of a derived class everything stays as it is; elsewhere references are replaced by their
values, containers keep class, kind, keys and length, and everything else stays. -/
theorem C130_positions_partial (val : Nat → Derived.Obj) (o r : Derived.Obj) (path : List Nat) (below : Bool)
    (h : at? o path = some (r, below)) :
    (below = true → at? (Derived.found val o) path = some (r, true)) ∧
    (below = false → ∀ id, r = .wrap id ∨ r = .ref id → at? (Derived.found val o) path = some (val id, false)) ∧
    (below = false → ∀ n, r = .other n → at? (Derived.found val o) path = some (.other n, false)) ∧
    (below = false → ∀ d k xs, r = .box d k xs →
      ∃ ys, at? (Derived.found val o) path = some (.box d k ys, false) ∧ ys.length = xs.length) := by
  have h1 := Derived.at?_found (val := val) path o r below h
  refine ⟨?_, ?_, ?_, ?_⟩
  · rintro rfl; simpa using h1
  · rintro rfl id (rfl | rfl) <;> simpa [Derived.found, Derived.unwrap, Derived.materialize] using h1
  · rintro rfl n rfl; simpa [Derived.found, Derived.unwrap, Derived.materialize] using h1
  · rintro rfl d k xs rfl
    cases d with
    | true => exact ⟨xs, by simpa [Derived.found_box_true] using h1, rfl⟩
    | false => exact ⟨xs.map (Derived.found val), by simpa [Derived.found_box_false] using h1, by simp⟩

/-- C130, exactly when all references are replaced: if none is below a container of a derived class. No reference is its own value. -/
theorem C130_exactly_partial (val : Nat → Derived.Obj) (o : Derived.Obj) (hv : ∀ id, val id ≠ .wrap id ∧ val id ≠ .ref id) :
    Derived.found val o = everywhere val o ↔ ∀ path r, at? o path = some (r, true) → ∀ id, r ≠ .wrap id ∧ r ≠ .ref id := by
  constructor
  · intro he path r hr id
    have h1 := Derived.at?_found (val := val) path o r true hr
    have h2 := Derived.at?_everywhere (val := val) path o r true hr
    rw [he, h2] at h1
    simp only [if_true, Option.some.injEq, Prod.mk.injEq, and_true] at h1
    constructor
    · rintro rfl; exact (hv id).1 h1
    · rintro rfl; exact (hv id).2 h1
  · exact Derived.found_all o

/-- C130, which references are sent along with a task: wrappers that are not below a container of a derived class, and data IDs anywhere. -/
theorem C130_arrives_partial (o : Derived.Obj) (id : Nat) : id ∈ Derived.arrives o ↔
    (∃ path, at? o path = some (.wrap id, false)) ∨ ∃ path b, at? o path = some (.ref id, b) :=
  Derived.mem_arrives o id

/-- An `OrderedDict` in a list, next to a reference. -/
example : Derived.found (fun id => .other (10 * id)) (.box false .list [.wrap 1, .box true (.dict [7]) [.wrap 2], .box false .tuple [.wrap 3]]) =
      .box false .list [.other 10, .box true (.dict [7]) [.wrap 2], .box false .tuple [.other 30]] ∧
    Derived.arrives (.box false .list [.wrap 1, .box true (.dict [7]) [.wrap 2], .box false .tuple [.wrap 3]]) = [1, 3] := ⟨rfl, rfl⟩

end Verif.Props
