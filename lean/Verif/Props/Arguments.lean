import Verif.Lemmas.Arguments

/-! Properties of the arguments of remote calls. -/
namespace Verif.Props
open Verif.Args Verif.Spec

/-! ## C53 -/

/-- At every time each reference either has its right value at hand or is still to come. -/
def Arriving (val : Nat → Obj) (looks : List (Nat → Look)) : Prop :=
  ∀ look ∈ looks, ∀ id, look id = .value (val id) ∨ look id = .pending

/-- The full claim: however a call is made and whenever values arrive, a task that runs gets every reference replaced. -/
def C53_full : Prop :=
  ∀ (sent : List Obj → List Obj), sent = sentByFunction ∨ sent = sentByMethod →
  ∀ (val : Nat → Obj) (looks : List (Nat → Look)) (args : List Obj), noRawList args = true → Arriving val looks →
    ∀ got, attempts looks (sent args) = .runs got → got = args.map (withValues val)

/-- Partial: values that contain no raw references, and calls of functions. The task never fails for its arguments, runs as
soon as no reference is pending, and gets every reference at any depth replaced, independently of earlier attempts. Missing:
methods of actors, values with raw references inside, references of unknown owner. -/
theorem C53_function_partial (val : Nat → Obj) (looks : List (Nat → Look)) (args : List Obj)
    (hv : ∀ id, noRaw (val id) = true) (ha : Arriving val looks) :
    (attempts looks (sentByFunction args) = .runs (args.map (withValues val)) ∨
      ((∃ rest, attempts looks (sentByFunction args) = .waits rest) ∧ ∀ look ∈ looks, ∃ id, look id = .pending)) := by
  have hs : fillList val (sentByFunction args) = args.map (withValues val) := by
    rw [fillList_eq, sentByFunction, filterArguments]
    simp only [List.map_map]
    apply List.map_congr_left
    intro a _
    cases a with
    | wrap id => rfl
    | other n => rfl
    | ref id => rfl
    | box b xs => exact fill_unwrap val (.box b xs)
  rcases attempts_spec hv looks ha (sentByFunction args) with h | ⟨h1, h2⟩
  · left; rw [h, hs]
  · exact Or.inr ⟨h2, h1⟩

mutual
private theorem same_of_withValues {val : Nat → Obj} (hv : ∀ id, noRaw (val id) = true) (hw : ∀ id, val id ≠ .wrap id) :
    ∀ o : Obj, withValues val o = o → noRaw o = true ∧ noWrap o = true
  | .other _, _ => ⟨rfl, rfl⟩
  | .wrap id, h => absurd h (hw id)
  | .ref id, h => by have := hv id; rw [show val id = .ref id from h] at this; cases this
  | .box b xs, h => by
    simp only [withValues, Obj.box.injEq, true_and] at h
    exact same_of_withValuesList hv hw xs h
private theorem same_of_withValuesList {val : Nat → Obj} (hv : ∀ id, noRaw (val id) = true) (hw : ∀ id, val id ≠ .wrap id) :
    ∀ xs : List Obj, withValuesList val xs = xs → noRawList xs = true ∧ noWrapList xs = true
  | [], _ => ⟨rfl, rfl⟩
  | x :: xs, h => by
    simp only [withValuesList, List.cons.injEq] at h
    have h1 := same_of_withValues hv hw x h.1
    have h2 := same_of_withValuesList hv hw xs h.2
    simp [noRawList, noWrapList, h1, h2]
end

mutual
private theorem noWrap_of_fill {val : Nat → Obj} (hw : ∀ id, val id ≠ .wrap id) :
    ∀ o : Obj, fill val o = withValues val o → noWrap o = true
  | .other _, _ => rfl
  | .wrap id, h => absurd h.symm (hw id)
  | .ref _, _ => rfl
  | .box b xs, h => by
    simp only [withValues, fill, Obj.box.injEq, true_and] at h
    exact noWrapList_of_fill hw xs h
private theorem noWrapList_of_fill {val : Nat → Obj} (hw : ∀ id, val id ≠ .wrap id) :
    ∀ xs : List Obj, fillList val xs = withValuesList val xs → noWrapList xs = true
  | [], _ => rfl
  | x :: xs, h => by
    simp only [withValuesList, fillList, List.cons.injEq] at h
    simp [noWrapList, noWrap_of_fill hw x h.1, noWrapList_of_fill hw xs h.2]
end

/-- Partial: calls of methods whose containers hold no references. -/
theorem C53_method_partial (val : Nat → Obj) (looks : List (Nat → Look)) (args : List Obj)
    (hv : ∀ id, noRaw (val id) = true) (hd : ∀ a ∈ args, directRefs a = true) (ha : Arriving val looks) :
    (attempts looks (sentByMethod args) = .runs (args.map (withValues val)) ∨
      ((∃ rest, attempts looks (sentByMethod args) = .waits rest) ∧ ∀ look ∈ looks, ∃ id, look id = .pending)) := by
  have hs : fillList val (sentByMethod args) = args.map (withValues val) := by
    rw [fillList_eq, sentByMethod, filterArguments]
    simp only [List.map_map]
    apply List.map_congr_left
    intro a ha
    cases a with
    | wrap id => rfl
    | other n => rfl
    | ref id => rfl
    | box b xs =>
      have h := hd _ ha
      simp only [directRefs, Bool.and_eq_true] at h
      have e := fill_unwrap val (.box b xs)
      rw [← e]
      simp only [Function.comp, filterArg]
      rw [unwrap_noWrap (.box b xs) (by simpa [noWrap] using h.2)]
  rcases attempts_spec hv looks ha (sentByMethod args) with h | ⟨h1, h2⟩
  · left; rw [h, hs]
  · exact Or.inr ⟨h2, h1⟩

/-- Exactly when a method gets the right arguments, all values being at hand: if no container among them has a wrapper inside.
No reference is its own value. Missing: wrappers inside containers. -/
theorem C53_method_exactly_partial (val : Nat → Obj) (args : List Obj) (hv : ∀ id, noRaw (val id) = true)
    (hw : ∀ id, val id ≠ .wrap id) :
    attempts [fun id => .value (val id)] (sentByMethod args) = .runs (args.map (withValues val)) ↔
      ∀ b xs, .box b xs ∈ args → noWrapList xs = true := by
  have hr : attempts [fun id => .value (val id)] (sentByMethod args) = .runs (fillList val (sentByMethod args)) := by
    rcases attempts_spec hv [fun id => .value (val id)] (by intro l hl id; simp at hl; subst hl; exact Or.inl rfl)
      (sentByMethod args) with h | ⟨h, -⟩
    · exact h
    · obtain ⟨id, h⟩ := h _ (List.mem_singleton.2 rfl)
      cases h
  rw [hr, Attempted.runs.injEq, fillList_eq, sentByMethod, filterArguments, List.map_map, List.map_inj_left]
  constructor
  · intro h b xs hm
    have := h _ hm
    simp only [Function.comp, filterArg] at this
    exact noWrap_of_fill hw _ this
  · intro h a ha
    cases a with
    | wrap id => rfl
    | other n => rfl
    | ref id => rfl
    | box b xs =>
      rw [← fill_unwrap, unwrap_noWrap (.box b xs) (by simpa [noWrap] using h b xs ha)]
      rfl

/-- Three references, the second arrives later; they are nested in a list and a dictionary. -/
example :
    attempts [fun id => if id = 2 then .pending else .value (.other (10 * id)), fun id => .value (.other (10 * id))]
      (sentByFunction [.wrap 1, .box .list [.wrap 2, .box (.dict [7]) [.wrap 3]], .other 5]) =
    .runs [.other 10, .box .list [.other 20, .box (.dict [7]) [.other 30]], .other 5] := by
  rfl

example : (∃ rest,
    attempts [fun id => if id = 2 then .pending else .value (.other (10 * id))] (sentByFunction [.wrap 1, .wrap 2]) =
      .waits rest) ∧
    attempts [fun id => .value (.other (10 * id))] (sentByMethod [.wrap 1, .box .tuple [.other 3]]) =
      .runs [.other 10, .box .tuple [.other 3]] := by
  exact ⟨⟨_, rfl⟩, rfl⟩

/-- Violation: a method of an actor gets the reference inside a list, not its value. -/
theorem C53_method_violated : ¬ C53_full := by
  intro h
  have := h sentByMethod (Or.inr rfl) (fun _ => .other 8) [fun _ => .value (.other 8)] [.box .list [.wrap 1]] rfl
    (by intro l hl id; simp at hl; subst hl; exact Or.inl rfl) [.box .list [.wrap 1]] rfl
  simp [withValues, withValuesList] at this

/-- Violation: if the value of a reference is a list with a raw reference inside, and another reference arrives later, the
second attempt also replaces what is inside the value. -/
theorem C53_value_violated :
    ∃ (val : Nat → Obj) (early late : Nat → Look) (args : List Obj),
      (∀ id, early id = .value (val id) ∨ early id = .pending) ∧ (∀ id, late id = .value (val id)) ∧
      ∃ got got', attempts [late] (sentByFunction args) = .runs got ∧
        attempts [early, late] (sentByFunction args) = .runs got' ∧ got ≠ got' ∧ got = args.map (withValues val) := by
  let val : Nat → Obj := fun id => if id = 1 then .box .list [.ref 3] else .other id
  refine ⟨val, fun id => if id = 2 then .pending else .value (val id), fun id => .value (val id), [.wrap 1, .wrap 2], ?_,
    fun _ => rfl, [.box .list [.ref 3], .other 2], [.box .list [.other 3], .other 2], rfl, rfl, by simp, rfl⟩
  intro id
  by_cases e : id = 2
  · right; simp [e]
  · left; simp [e]

/-- Violation: a reference of unknown owner inside the arguments ends the worker (`ValueError`). -/
theorem C53_missing_violated : attempts [fun _ => .missing] (sentByFunction [.box .list [.wrap 1]]) = .crash := rfl

/-! ## C62 -/

/-- Each position of the stripped structure holds the reference if there was a wrapper, a container of the same kind, keys and
length if there was one, and otherwise what was there; positions that did not exist still do not. -/
theorem C62_positions (o : Obj) (path : List Nat) :
    match find o path with
    | none => find (unwrap o) path = none
    | some (.wrap id) => find (unwrap o) path = some (.ref id)
    | some (.box b xs) => ∃ ys, find (unwrap o) path = some (.box b ys) ∧ ys.length = xs.length
    | some other => find (unwrap o) path = some other := by
  rw [find_unwrap]
  cases h : find o path with
  | none => rfl
  | some v =>
    cases v with
    | box b xs => exact ⟨unwrapList xs, rfl, by rw [unwrapList_eq, List.length_map]⟩
    | wrap id => rfl
    | ref id => rfl
    | other n => rfl

/-- No wrapper is left, and a structure without wrappers stays as it is. -/
theorem C62_none_left (o : Obj) : noWrap (unwrap o) = true ∧ (noWrap o = true → unwrap o = o) :=
  ⟨noWrap_unwrap o, unwrap_noWrap o⟩

/-- The same holds for the arguments that leave `remote`: each of them is the stripped argument. -/
theorem C62_sent (args : List Obj) : sentByFunction args = args.map unwrap := by
  simp only [sentByFunction, filterArguments, List.map_map]
  apply List.map_congr_left
  intro a _
  cases a <;> rfl

example : sentByFunction [.wrap 1, .box (.dict [4, 5]) [.box .tuple [.wrap 2, .other 3], .wrap 1]] =
    [.ref 1, .box (.dict [4, 5]) [.box .tuple [.ref 2, .other 3], .ref 1]] ∧
    find (.box .list [.other 0, .box .tuple [.wrap 2]]) [1, 0] = some (.wrap 2) := ⟨rfl, rfl⟩

/-! ## C73 -/

/-- The full claim: when every value is available, functions see the same arguments on MPI as on the multiprocessing and the
sequential backend. -/
def C73_full : Prop :=
  ∀ (val : Nat → Obj) (args : List Obj), (∀ id, noRaw (val id) = true) → noRawList args = true →
    attempts [fun id => .value (val id)] (sentByFunction args) = .runs (directOnly val args)

/-- Violation: a reference in a list is a value on MPI and a reference on the others. -/
theorem C73_full_violated : ¬ C73_full := by
  intro h
  have := h (fun _ => .other 8) [.box .list [.wrap 1]] (fun _ => rfl) rfl
  simp [attempts, attempt, sentByFunction, filterArguments, filterArg, unwrap, unwrapList, materialize, materializeList,
    unwrapLocal, directOnly] at this

/-- Partial: if containers hold no references, the backends agree. Missing: nested references. -/
theorem C73_direct_partial (val : Nat → Obj) (args : List Obj) (hv : ∀ id, noRaw (val id) = true)
    (hd : ∀ a ∈ args, directRefs a = true) :
    attempts [fun id => .value (val id)] (sentByFunction args) = .runs (directOnly val args) := by
  have h := C53_function_partial val [fun id => .value (val id)] args hv
    (by intro l hl id; simp at hl; subst hl; exact Or.inl rfl)
  rcases h with h | ⟨-, h⟩
  · rw [h]
    congr 1
    simp only [directOnly, filterArguments, List.map_map]
    apply List.map_congr_left
    intro a ha
    cases a with
    | wrap id => rfl
    | other n => rfl
    | ref id => rfl
    | box b xs =>
      have hb := hd _ ha
      simp only [directRefs, Bool.and_eq_true] at hb
      rw [← fill_unwrap, unwrap_noWrap _ (by simpa [noWrap] using hb.2), fill_noRaw _ _ (by simpa [noRaw] using hb.1)]
      rfl
  · obtain ⟨id, h⟩ := h _ (List.mem_singleton.2 rfl)
    cases h

/-- Which of the two a function sees: on MPI the value at every depth, elsewhere the container as the caller passed it. -/
theorem C73_nested_partial (val : Nat → Obj) (b : Box) (xs : List Obj) (hv : ∀ id, noRaw (val id) = true) :
    attempts [fun id => .value (val id)] (sentByFunction [.box b xs]) = .runs [.box b (xs.map (withValues val))] ∧
      directOnly val [.box b xs] = [.box b xs] := by
  have h := C53_function_partial val [fun id => .value (val id)] [.box b xs] hv
    (by intro l hl id; simp at hl; subst hl; exact Or.inl rfl)
  refine ⟨?_, rfl⟩
  rcases h with h | ⟨-, h⟩
  · rw [h]; simp [withValues, withValuesList_eq]
  · obtain ⟨id, h⟩ := h _ (List.mem_singleton.2 rfl)
    cases h

/-- Exactly when the backends agree: if no container among the arguments has a reference inside. No reference is its own value.
Missing: nested references. -/
theorem C73_exactly_partial (val : Nat → Obj) (args : List Obj) (hv : ∀ id, noRaw (val id) = true)
    (hw : ∀ id, val id ≠ .wrap id) :
    attempts [fun id => .value (val id)] (sentByFunction args) = .runs (directOnly val args) ↔
      ∀ a ∈ args, directRefs a = true := by
  refine ⟨fun h => ?_, C73_direct_partial val args hv⟩
  have h' := C53_function_partial val [fun id => .value (val id)] args hv
    (by intro l hl id; simp at hl; subst hl; exact Or.inl rfl)
  rcases h' with h' | ⟨-, h'⟩
  · rw [h', Attempted.runs.injEq, directOnly, filterArguments, List.map_map, List.map_inj_left] at h
    intro a ha
    cases a with
    | wrap id => rfl
    | other n => rfl
    | ref id => rfl
    | box b xs =>
      have := same_of_withValues hv hw _ (h _ ha)
      simpa [directRefs, noRaw, noWrap] using this
  · obtain ⟨id, h'⟩ := h' _ (List.mem_singleton.2 rfl)
    cases h'

example : directOnly (fun id => .other (10 * id)) [.wrap 1, .box .list [.other 2], .wrap 3] =
    [.other 10, .box .list [.other 2], .other 30] := rfl

example : (∀ a ∈ [Obj.wrap 1, .box .list [.other 2]], directRefs a = true) ∧ directRefs (.box .list [.other 2, .wrap 1]) = false := by
  decide

end Verif.Props
