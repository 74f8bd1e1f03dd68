import Verif.Model.MetadataDict

/-! Metadata packages cannot be changed and arrive as they were sent (C118). -/
namespace Verif.Props
open Verif.MetaDict

variable {K V : Type} [DecidableEq K]

/-- **C118**, full claim: no sequence of operations changes an `ImmutableDict`. -/
def C118_full : Prop := ∀ (d : List (Nat × Nat)) (ops : List (Op Nat Nat)), (run d ops).2 = d

/-- `|=` changes it. -/
theorem C118_violated : ¬ C118_full := fun h => absurd (h [(1, 2)] [.orEq [(1, 3)]]) (by decide)

/-- Any sequence of operations without `|=` leaves the dictionary as it was; the changing ones raise `TypeError`, the reading ones return what
`dict` would return. Missing: `|=`. -/
theorem C118_unchanged_partial (d : List (K × V)) (ops : List (Op K V)) (h : ∀ l, Op.orEq l ∉ ops) :
    (run d ops).2 = d ∧
    (run d ops).1 = ops.map (fun op => match op with
      | .getItem k => match d.find? (fun p => p.1 = k) with
        | some p => .value p.2
        | none => .keyError
      | .contains k => .bool (d.any (fun p => p.1 = k))
      | .copy => .items d
      | .or l => .items (l.foldl (fun d p => put p.1 p.2 d) d)
      | _ => .typeError) := by
  have one : ∀ op : Op K V, (∀ l, op ≠ .orEq l) → (step d op).2 = d := by
    intro op hop
    cases op with
    | orEq l => exact absurd rfl (hop l)
    | getItem k => simp only [step, replaced, dictStep]; cases find k d <;> rfl
    | _ => rfl
  induction ops with
  | nil => exact ⟨rfl, rfl⟩
  | cons op ops ih =>
    have hop : ∀ l, op ≠ .orEq l := fun l e => h l (by simp [e])
    obtain ⟨h1, h2⟩ := ih (fun l hl => h l (List.mem_cons_of_mem _ hl))
    have h0 := one op hop
    simp only [run, h0, h1, h2, List.map_cons, true_and]
    congr 1
    cases op with
    | orEq l => exact absurd rfl (hop l)
    | getItem k =>
      simp only [step, replaced, dictStep, find, Bool.false_eq_true, if_false]
      cases d.find? (fun p => p.1 = k) <;> rfl
    | contains k =>
      simp only [step, replaced, dictStep, find, Bool.false_eq_true, if_false, Option.isSome_map]
      congr 1
      rw [Bool.eq_iff_iff, List.find?_isSome]
      simp
    | _ => rfl

/-- `|=` does the same as for `dict`. -/
theorem C118_or_eq_exact_partial (d l : List (K × V)) : step d (.orEq l) = (.none, l.foldl (fun d p => put p.1 p.2 d) d) := rfl

/-- The value of a key in a dictionary. -/
def valueIn (d : List (K × V)) (k : K) : Option V := (d.find? (fun p => p.1 = k)).map (·.2)

theorem valueIn_put (k k' : K) (v : V) (d : List (K × V)) : valueIn (put k v d) k' = if k = k' then some v else valueIn d k' := by
  induction d with
  | nil => simp only [put, valueIn, List.find?_cons]; split <;> simp_all
  | cons p d ih =>
    simp only [put]
    split
    · rename_i h
      simp only [valueIn, List.find?_cons]
      split <;> simp_all
    · rename_i h
      simp only [valueIn, List.find?_cons] at ih ⊢
      by_cases hp : p.1 = k'
      · have : k ≠ k' := fun e => h (hp.trans e.symm)
        simp [hp, this]
      · simpa [hp] using ih

theorem keys_put (k : K) (v : V) (d : List (K × V)) :
    (put k v d).map (·.1) = if k ∈ d.map (·.1) then d.map (·.1) else d.map (·.1) ++ [k] := by
  induction d with
  | nil => rfl
  | cons p d ih =>
    simp only [put]
    split
    · rename_i h; simp [h]
    · rename_i h
      have h' : k ≠ p.1 := fun e => h e.symm
      simp only [List.map_cons, ih, List.mem_cons, h', false_or]
      split <;> simp

/-- After `|=`, and in the result of `|`, a key of the other dictionary has its value there, every other key its former value; the keys keep
their order, new ones follow. -/
theorem C118_union_partial (d l : List (K × V)) (hl : (l.map (·.1)).Nodup) (k : K) :
    (step d (.or l)).1 = .items (step d (.orEq l)).2 ∧
    valueIn (step d (.orEq l)).2 k = (valueIn l k).or (valueIn d k) ∧
    (step d (.orEq l)).2.map (·.1) = d.map (·.1) ++ (l.map (·.1)).filter (fun k => k ∉ d.map (·.1)) := by
  refine ⟨rfl, ?_⟩
  rw [C118_or_eq_exact_partial]
  simp only
  induction l generalizing d with
  | nil => simp [valueIn]
  | cons p l ih =>
    simp only [List.map_cons, List.nodup_cons] at hl
    obtain ⟨h1, h2⟩ := ih (put p.1 p.2 d) hl.2
    rw [List.foldl_cons]
    constructor
    · rw [h1, valueIn_put]
      by_cases hp : p.1 = k
      · have : valueIn l k = none := by
          simp only [valueIn, Option.map_eq_none_iff, List.find?_eq_none]
          intro q hq
          have : q.1 ≠ k := fun e => hl.1 (by rw [hp, ← e]; exact List.mem_map.2 ⟨_, hq, rfl⟩)
          simpa using this
        rw [this]; simp [hp, valueIn]
      · simp [hp, valueIn]
    · rw [h2, keys_put]
      by_cases hp : p.1 ∈ d.map (·.1)
      · rw [if_pos hp, List.map_cons, List.filter_cons_of_neg (by simpa using hp)]
      · rw [if_neg hp, List.map_cons, List.filter_cons_of_pos (by simpa using hp), List.append_assoc]
        rw [List.singleton_append]
        congr 2
        apply List.filter_congr
        intro x hx
        have : x ≠ p.1 := fun e => hl.1 (e ▸ hx)
        simp [this]

theorem put_new (k : K) (v : V) (d : List (K × V)) (h : k ∉ d.map (·.1)) : put k v d = d ++ [(k, v)] := by
  induction d with
  | nil => rfl
  | cons p d ih =>
    simp only [List.map_cons, List.mem_cons, not_or] at h
    simp [put, Ne.symm h.1, ih h.2]

theorem receive_plain_from (acc items : List (K × V)) (h : ((acc ++ items).map (·.1)).Nodup) :
    items.foldlM (setOne .plain) acc = some (acc ++ items) := by
  induction items generalizing acc with
  | nil => simp
  | cons p t ih =>
    have hk : p.1 ∉ acc.map (·.1) := by
      simp only [List.map_append, List.map_cons] at h
      intro hm
      exact (List.nodup_append.1 h).2.2 _ hm _ List.mem_cons_self rfl
    have e : setOne .plain acc p = some (acc ++ [p]) := by simp only [setOne, dictStep, put_new p.1 p.2 acc hk]
    rw [List.foldlM_cons, e]
    have := ih (acc ++ [p]) (by simpa using h)
    simpa using this

/-- A package, wrapped to `dict`, arrives with the same items. -/
theorem C118_package_arrives (d : List (K × V)) (h : (d.map (·.1)).Nodup) : sendPackage d = some d := by
  have := receive_plain_from [] d (by simpa using h)
  simpa [sendPackage, receive] using this

/-- Without wrapping nothing but an empty package would arrive. -/
theorem C118_wrapping_needed (d : List (K × V)) : receive .immutable d = if d.isEmpty then some [] else none := by
  cases d <;> rfl

example : run [(1, 10), (2, 20)] [.setItem 1 11, .pop 2, .getItem 2, .or [(2, 21)], .copy] =
    ([.typeError, .typeError, .value 20, .items [(1, 10), (2, 21)], .items [(1, 10), (2, 20)]], [(1, 10), (2, 20)]) := by decide

example : valueIn (step [(1, 10), (2, 20)] (.orEq [(2, 21), (3, 30)])).2 2 = some 21 ∧
    (step [(1, 10), (2, 20)] (.orEq [(2, 21), (3, 30)])).2.map (·.1) = [1, 2, 3] := by decide

example : sendPackage [(3, 30), (1, 10)] = some [(3, 30), (1, 10)] ∧ receive .immutable [(3, 30)] = (none : Option (List (Nat × Nat))) := by decide

end Verif.Props
