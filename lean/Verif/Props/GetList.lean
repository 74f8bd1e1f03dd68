import Verif.Spec.GetList
import Mathlib.Data.List.Dedup
import Mathlib.Data.List.Perm.Subperm

/-! `get` of a list of references on the different backends (C129). -/
namespace Verif.GetList
open Verif.Spec

/-- The objects that arrive, and the first exception among them. -/
def firstExc : List (Nat × Obj) → Option Exc
  | [] => none
  | (_, .exc e) :: _ => some e
  | _ :: rest => firstExc rest

/-- The store after some messages. -/
def addAll (s : Store) : List (Nat × Obj) → Store
  | [] => s
  | (i, o) :: rest => addAll (s.add i o) rest

theorem pullAll_spec (remote : List Nat) : ∀ (arr : List (Nat × Obj)) (p : Pull), (∀ m ∈ arr, m.1 ∈ remote) →
    p.count + arr.length ≤ remote.length →
    pullAll remote p arr = (if p.count + arr.length < remote.length then Loop.waiting else Loop.done)
      ⟨p.count + arr.length, p.raised.or (firstExc arr), addAll p.store arr⟩
  | [], p, _, _ => by
      cases p
      simp [pullAll, firstExc, addAll]
      split <;> rfl
  | (i, o) :: rest, p, hm, hl => by
      simp only [List.length_cons] at hl ⊢
      have h1 : p.count < remote.length := by omega
      have h2 : i ∈ remote := hm (i, o) (by simp)
      rw [pullAll, if_pos h1]
      dsimp only
      rw [if_pos h2, pullAll_spec remote rest _ (fun m h => hm m (by simp [h])) (by simp; omega)]
      have e1 : p.count + 1 + rest.length = p.count + (rest.length + 1) := by omega
      dsimp only
      rw [e1]
      have e2 : (keepFirst p.raised o).or (firstExc rest) = p.raised.or (firstExc ((i, o) :: rest)) := by
        cases h : p.raised <;> cases o <;> simp [keepFirst, firstExc]
      rw [e2]
      rfl

theorem addAll_notMem : ∀ (arr : List (Nat × Obj)) (s : Store) (i : Nat), i ∉ arr.map Prod.fst → addAll s arr i = s i
  | [], _, _, _ => rfl
  | (j, o) :: rest, s, i, h => by
      simp only [List.map_cons, List.mem_cons, not_or] at h
      rw [addAll, addAll_notMem rest _ i h.2]
      simp [Store.add, h.1]

theorem addAll_mem {results : Nat → Option Obj} : ∀ (arr : List (Nat × Obj)) (s : Store) (i : Nat),
    (∀ m ∈ arr, results m.1 = some m.2) → i ∈ arr.map Prod.fst → addAll s arr i = results i
  | [], _, _, _, h => by simp at h
  | (j, o) :: rest, s, i, hr, h => by
      rw [addAll]
      by_cases hi : i ∈ rest.map Prod.fst
      · exact addAll_mem rest _ i (fun m hm => hr m (by simp [hm])) hi
      · rw [addAll_notMem rest _ i hi]
        simp only [List.map_cons, List.mem_cons] at h
        rcases h with rfl | h
        · simp [Store.add, hr (i, o) (by simp)]
        · exact absurd h hi

theorem read_eq : ∀ (ids : List Nat) (s : Store), (∀ i ∈ ids, s i ≠ none) →
    ∃ os, s.read ids = some os ∧ os.length = ids.length ∧ ∀ (k i : Nat), ids[k]? = some i → os[k]? = s i
  | [], _, _ => ⟨[], rfl, rfl, by simp⟩
  | i :: is, s, h => by
      obtain ⟨os, h1, h2, h3⟩ := read_eq is s (fun j hj => h j (by simp [hj]))
      obtain ⟨o, ho⟩ := Option.ne_none_iff_exists'.1 (h i (by simp))
      refine ⟨o :: os, by simp [Store.read, ho, h1], by simp [h2], ?_⟩
      intro k j hk
      cases k with
      | zero => simp at hk; subst hk; simp [ho]
      | succ k => simp at hk ⊢; exact h3 k j hk

theorem firstExc_some {e : Exc} : ∀ {arr : List (Nat × Obj)}, firstExc arr = some e → ∃ i, (i, Obj.exc e) ∈ arr
  | [], h => by simp [firstExc] at h
  | (i, .exc e') :: rest, h => by
      simp only [firstExc, Option.some.injEq] at h
      exact ⟨i, by simp [h]⟩
  | (i, .val n) :: rest, h => by
      obtain ⟨j, hj⟩ := firstExc_some (arr := rest) (by simpa [firstExc] using h)
      exact ⟨j, by simp [hj]⟩

theorem firstExc_none : ∀ {arr : List (Nat × Obj)}, firstExc arr = none → ∀ i e, (i, Obj.exc e) ∉ arr
  | [], _, _, _ => by simp
  | (i, .exc e') :: rest, h, _, _ => by simp [firstExc] at h
  | (i, .val n) :: rest, h, j, e => by
      have := firstExc_none (arr := rest) (by simpa [firstExc] using h) j e
      simp [this]

variable {results : Nat → Option Obj} {has : Store} {ids : List Nat} {arr : List (Nat × Obj)}

/-- The references that are asked for. -/
def asked (has : Store) (ids : List Nat) : List Nat := ids.filter fun i => (has i).isNone

theorem mem_asked {i : Nat} : i ∈ asked has ids ↔ i ∈ ids ∧ has i = none := by
  simp [asked]

theorem replies_sub (h : Replies results has ids arr) : arr.map Prod.fst ⊆ asked has ids := by
  intro i hi
  obtain ⟨m, hm, rfl⟩ := List.mem_map.1 hi
  obtain ⟨h1, h2, _⟩ := h.2 m hm
  exact mem_asked.2 ⟨h1, h2⟩

theorem replies_len (h : Replies results has ids arr) : arr.length ≤ (asked has ids).length := by
  have := (List.subperm_of_subset h.1 (replies_sub h)).length_le
  simpa using this

/-- What `get` does with the answers. -/
theorem getMpi_replies (h : Replies results has ids arr) :
    getMpi has ids arr =
      if arr.length < (asked has ids).length then none else
      match firstExc arr with
      | some e =>
        if e.truthy then some (.raised e, addAll has arr)
        else match (addAll has arr).read ids with
          | some os => some (.values os, addAll has arr)
          | none => some (.missing, addAll has arr)
      | none =>
        match (addAll has arr).read ids with
        | some os => some (.values os, addAll has arr)
        | none => some (.missing, addAll has arr) := by
  have hl := replies_len h
  have h1 := pullAll_spec (asked has ids) arr ⟨0, none, has⟩
    (fun m hm => replies_sub h (List.mem_map.2 ⟨m, hm, rfl⟩)) (by simpa using hl)
  simp only [Nat.zero_add, Option.none_or] at h1
  simp only [getMpi]
  have h2 : (List.filter (fun i => (has i).isNone) ids) = asked has ids := rfl
  rw [h2, h1]
  by_cases hlt : arr.length < (asked has ids).length
  · simp [hlt]
  · simp only [hlt, if_false]
    cases firstExc arr with
    | none => dsimp only; cases (addAll has arr).read ids <;> rfl
    | some e => dsimp only; cases (addAll has arr).read ids <;> rfl

theorem replies_full (h : Replies results has ids arr) :
    arr.length = (asked has ids).length ↔ (asked has ids).Nodup ∧ ∀ i ∈ ids, has i = none → i ∈ arr.map Prod.fst := by
  have hs := List.subperm_of_subset h.1 (replies_sub h)
  constructor
  · intro hl
    have hp := hs.perm_of_length_le (by simp [hl])
    exact ⟨hp.nodup_iff.1 h.1, fun i hi hn => hp.mem_iff.2 (mem_asked.2 ⟨hi, hn⟩)⟩
  · rintro ⟨hn, hm⟩
    have := (List.subperm_of_subset hn (l₂ := arr.map Prod.fst) (fun i hi => hm i (mem_asked.1 hi).1 (mem_asked.1 hi).2)).length_le
    have h2 := replies_len h
    simp at this
    omega

/-- When a `get` ends all objects are there. -/
theorem addAll_eq (h : Replies results has ids arr) (hc : ∀ i o, has i = some o → results i = some o)
    (hf : ∀ i ∈ ids, has i = none → i ∈ arr.map Prod.fst) {i : Nat} (hi : i ∈ ids) :
    addAll has arr i = results i ∧ results i ≠ none := by
  have hr : ∀ m ∈ arr, results m.1 = some m.2 := fun m hm => (h.2 m hm).2.2
  cases hh : has i with
  | none =>
    have hm := hf i hi hh
    refine ⟨addAll_mem arr has i hr hm, ?_⟩
    obtain ⟨m, hm', rfl⟩ := List.mem_map.1 hm
    rw [hr m hm']; simp
  | some o =>
    have hn : i ∉ arr.map Prod.fst := by
      intro hm
      obtain ⟨m, hm', rfl⟩ := List.mem_map.1 hm
      rw [(h.2 m hm').2.1] at hh; simp at hh
    rw [addAll_notMem arr has i hn, hh, hc i o hh]; simp

/-- The answers in the order of a list. -/
def answersFor (results : Nat → Option Obj) (l : List Nat) : List (Nat × Obj) :=
  l.filterMap fun j => (results j).map (j, ·)

theorem answersFor_fst (l : List Nat) : (answersFor results l).map Prod.fst = l.filter fun j => (results j).isSome := by
  induction l with
  | nil => rfl
  | cons j l ih =>
    rw [answersFor, List.filterMap_cons, List.filter_cons]
    cases h : results j with
    | none => simpa [answersFor] using ih
    | some o => simpa [answersFor] using ih

theorem mem_answersFor {l : List Nat} {m : Nat × Obj} : m ∈ answersFor results l ↔ m.1 ∈ l ∧ results m.1 = some m.2 := by
  obtain ⟨i, o⟩ := m
  simp [answersFor]

theorem allReplied_answersFor {l : List Nat} (hn : l.Nodup) (hl : ∀ i, i ∈ l ↔ i ∈ asked has ids) :
    AllReplied results has ids (answersFor results l) := by
  refine ⟨⟨?_, ?_⟩, ?_⟩
  · rw [answersFor_fst]; exact hn.filter _
  · intro m hm
    obtain ⟨h1, h2⟩ := mem_answersFor.1 hm
    obtain ⟨h3, h4⟩ := mem_asked.1 ((hl _).1 h1)
    exact ⟨h3, h4, h2⟩
  · intro i hi hh hr
    rw [answersFor_fst, List.mem_filter]
    exact ⟨(hl i).2 (mem_asked.2 ⟨hi, hh⟩), by simpa [Option.isSome_iff_ne_none] using hr⟩

/-! ## The other backends -/

theorem answersList_cons_val {i n : Nat} {is : List Nat} {os : List Obj} (h : results i = some (.val n))
    (hs : AnswersList results is (.values os)) : AnswersList results (i :: is) (.values (.val n :: os)) := by
  obtain ⟨h1, h2⟩ := hs
  refine ⟨by simp [h1], ?_⟩
  intro k j hk
  cases k with
  | zero => simp at hk; subst hk; exact ⟨n, h, by simp⟩
  | succ k => simp at hk; simpa using h2 k j hk

theorem answersList_cons_raised {i n : Nat} {is : List Nat} {e : Exc} (h : results i = some (.val n))
    (hs : AnswersList results is (.raised e)) : AnswersList results (i :: is) (.raised e) := by
  obtain ⟨k, j, h1, h2, h3⟩ := hs
  refine ⟨k + 1, j, by simpa using h1, h2, ?_⟩
  intro k' j' hk hj
  cases k' with
  | zero => simp at hj; subst hj; exact ⟨n, h⟩
  | succ k' => simp at hj; exact h3 k' j' (by omega) hj

theorem getPymp_sound : ∀ (ids : List Nat) (g : Got), getPymp results ids = some g → AnswersList results ids g
  | [], g, h => by
      simp only [getPymp, Option.some.injEq] at h
      subst h
      exact ⟨rfl, by simp⟩
  | i :: is, g, h => by
      rw [getPymp] at h
      cases hr : results i with
      | none => rw [hr] at h; simp at h
      | some o =>
        rw [hr] at h
        cases o with
        | exc e =>
          simp only [Option.some.injEq] at h
          subst h
          exact ⟨0, i, by simp, hr, by simp⟩
        | val n =>
          dsimp only at h
          cases hg : getPymp results is with
          | none => rw [hg] at h; simp at h
          | some g' =>
            have ih := getPymp_sound is g' hg
            rw [hg] at h
            cases g' with
            | values os =>
              simp only [Option.some.injEq] at h
              subst h
              exact answersList_cons_val hr ih
            | raised e =>
              simp only [Option.some.injEq] at h
              subst h
              exact answersList_cons_raised hr ih
            | unasked => exact ih.elim
            | missing => exact ih.elim

/-- There is one right answer. -/
theorem answersList_unique {ids : List Nat} {g g' : Got} (h : AnswersList results ids g) (h' : AnswersList results ids g') : g = g' := by
  have key : ∀ os e, AnswersList results ids (.values os) → AnswersList results ids (.raised e) → False := by
    rintro os e ⟨_, h2⟩ ⟨k, i, h3, h4, _⟩
    obtain ⟨n, h5, _⟩ := h2 k i h3
    rw [h4] at h5; simp at h5
  cases g with
  | unasked => exact h.elim
  | missing => exact h.elim
  | values os =>
    cases g' with
    | unasked => exact h'.elim
    | missing => exact h'.elim
    | raised e => exact (key os e h h').elim
    | values os' =>
      congr 1
      apply List.ext_getElem?
      intro k
      by_cases hk : k < ids.length
      · obtain ⟨n, h1, h2⟩ := h.2 k ids[k] (by simp [hk])
        obtain ⟨n', h1', h2'⟩ := h'.2 k ids[k] (by simp [hk])
        rw [h1] at h1'
        simp at h1'
        rw [h2, h2', h1']
      · rw [List.getElem?_eq_none (by have := h.1; omega), List.getElem?_eq_none (by have := h'.1; omega)]
  | raised e =>
    cases g' with
    | unasked => exact h'.elim
    | missing => exact h'.elim
    | values os => exact (key os e h' h).elim
    | raised e' =>
      obtain ⟨k, i, h1, h2, h3⟩ := h
      obtain ⟨k', i', h1', h2', h3'⟩ := h'
      rcases Nat.lt_trichotomy k k' with hlt | rfl | hlt
      · obtain ⟨n, hn⟩ := h3' k i hlt h1
        rw [h2] at hn; simp at hn
      · rw [h1] at h1'
        simp at h1'
        subst h1'
        rw [h2] at h2'
        simpa using h2'
      · obtain ⟨n, hn⟩ := h3 k' i' hlt h1'
        rw [h2'] at hn; simp at hn

theorem getPymp_ends : ∀ {ids : List Nat} {g : Got}, AnswersList results ids g → getPymp results ids ≠ none
  | [], _, _ => by simp [getPymp]
  | i :: is, g, h => by
      rw [getPymp]
      cases hr : results i with
      | none =>
        exfalso
        cases g with
        | unasked => exact h
        | missing => exact h
        | values os => obtain ⟨n, h1, _⟩ := h.2 0 i (by simp); rw [hr] at h1; simp at h1
        | raised e =>
          obtain ⟨k, j, h1, h2, h3⟩ := h
          cases k with
          | zero => simp at h1; subst h1; rw [hr] at h2; simp at h2
          | succ k => obtain ⟨n, h4⟩ := h3 0 i (by omega) (by simp); rw [hr] at h4; simp at h4
      | some o =>
        cases o with
        | exc e => simp
        | val n =>
          have h' : ∃ g', AnswersList results is g' := by
            cases g with
            | unasked => exact h.elim
            | missing => exact h.elim
            | values os =>
              refine ⟨.values os.tail, by have := h.1; simp at this ⊢; omega, ?_⟩
              intro k j hk
              obtain ⟨n, h1, h2⟩ := h.2 (k + 1) j (by simpa using hk)
              exact ⟨n, h1, by simpa using h2⟩
            | raised e =>
              obtain ⟨k, j, h1, h2, h3⟩ := h
              cases k with
              | zero => simp at h1; subst h1; rw [hr] at h2; simp at h2
              | succ k =>
                exact ⟨.raised e, k, j, by simpa using h1, h2,
                  fun k' j' hk hj => h3 (k' + 1) j' (by omega) (by simpa using hj)⟩
          obtain ⟨g', hg'⟩ := h'
          have := getPymp_ends hg'
          dsimp only
          split <;> simp_all

theorem getPyseq_eq : ∀ (ids : List Nat) (g : Got), (getPyseq results ids = g ∧ g ≠ .missing) ↔ getPymp results ids = some g
  | [], g => by
      simp only [getPyseq, getPymp, Option.some.injEq]
      constructor
      · exact fun h => h.1
      · rintro rfl; simp
  | i :: is, g => by
      rw [getPyseq, getPymp]
      cases hr : results i with
      | none => simp; rintro rfl; simp
      | some o =>
        cases o with
        | exc e => simp; rintro rfl; simp
        | val n =>
          dsimp only
          have ih := getPyseq_eq is
          cases hg : getPymp results is with
          | none =>
            have : getPyseq results is = .missing := by
              by_contra hne
              have := (ih (getPyseq results is)).1 ⟨rfl, hne⟩
              rw [hg] at this; simp at this
            rw [this]
            simp; rintro rfl; simp
          | some g' =>
            obtain ⟨h1, h2⟩ := (ih g').2 hg
            rw [h1]
            cases g' with
            | values os => simp; rintro rfl; simp
            | raised e => simp; rintro rfl; simp
            | unasked => simp; rintro rfl; simp
            | missing => simp at h2

/-! ## The MPI backend -/

/-- What a `get` that ends gives. -/
theorem getMpi_full (h : Replies results has ids arr) (hc : ∀ i o, has i = some o → results i = some o)
    (hf : ∀ i ∈ ids, has i = none → i ∈ arr.map Prod.fst) (hn : (asked has ids).Nodup) :
    ∃ os, os.length = ids.length ∧ (∀ (k i : Nat), ids[k]? = some i → os[k]? = results i) ∧
      ((∃ e, firstExc arr = some e ∧ e.truthy = true ∧ getMpi has ids arr = some (.raised e, addAll has arr)) ∨
       ((∀ e, firstExc arr = some e → e.truthy = false) ∧ getMpi has ids arr = some (.values os, addAll has arr))) := by
  have hl := (replies_full h).2 ⟨hn, hf⟩
  obtain ⟨os, h1, h2, h3⟩ := read_eq ids (addAll has arr) (fun i hi => by
    obtain ⟨h1, h2⟩ := addAll_eq h hc hf hi
    rw [h1]; exact h2)
  refine ⟨os, h2, ?_, ?_⟩
  · intro k i hk
    rw [h3 k i hk, (addAll_eq h hc hf (List.mem_of_getElem? hk)).1]
  · rw [getMpi_replies h, if_neg (by omega), h1]
    cases hfe : firstExc arr with
    | none => right; simp
    | some e =>
      cases ht : e.truthy with
      | true => left; exact ⟨e, rfl, ht, by simp [ht]⟩
      | false => right; simp [ht]

/-- With no exceptions in the list the right answer are the values. -/
theorem answersList_values {os : List Obj} (h2 : os.length = ids.length) (h3 : ∀ (k i : Nat), ids[k]? = some i → os[k]? = results i)
    (hx : ∀ i ∈ ids, ∀ e, results i ≠ some (.exc e)) : AnswersList results ids (.values os) := by
  refine ⟨h2, ?_⟩
  intro k i hk
  have hlt : k < ids.length := by
    by_contra hge
    rw [List.getElem?_eq_none (by omega)] at hk; simp at hk
  have h4 := h3 k i hk
  obtain ⟨o, ho⟩ : ∃ o, os[k]? = some o := ⟨os[k], by simp⟩
  rw [ho] at h4
  cases o with
  | val n => exact ⟨n, h4.symm, ho⟩
  | exc e => exact absurd h4.symm (hx i (List.mem_of_getElem? hk) e)

end Verif.GetList

namespace Verif.Props
open Verif.Spec Verif.GetList

/-- C129, the full statement: whatever was put and got before and in whatever order the data arrives, `get` of references whose objects all
exist ends on the MPI backend, with all values in their order or the error of the first reference of the list that failed, and the
multiprocessing and the sequential backend do the same. -/
def C129_full : Prop := ∀ (results : Nat → Option Obj) (ops : List Op), LegalProgram results ops →
  (∀ ids ∈ listsAsked ops, ∀ i ∈ ids, results i ≠ none) →
  ∃ gs, runMpi (fun _ => none) ops = some gs ∧
    List.Forall₂ (fun ids g => AnswersList results ids g ∧ getPymp results ids = some g ∧ getPyseq results ids = g) (listsAsked ops) gs

/-- Two references that have failed: 0 with the error 7, 1 with the error 8, and one with an exception whose truth value is false. -/
def exObjects : Nat → Option Obj
  | 0 => some (.exc ⟨7, true⟩)
  | 1 => some (.exc ⟨8, true⟩)
  | 2 => some (.exc ⟨9, false⟩)
  | 3 => some (.val 5)
  | 4 => some (.val 6)
  | _ => none

theorem legal_one {results : Nat → Option Obj} {ids : List Nat} {arr : List (Nat × Obj)}
    (h : AllReplied results (fun _ => none) ids arr) : LegalProgram results [.get ids arr] := by
  intro done op later he
  cases done with
  | nil =>
    simp only [List.nil_append, List.cons.injEq] at he
    rw [← he.1]
    exact h
  | cons o done => simp at he

/-- The error that arrives first is raised, not the one of the first reference: `get([x, y])` raises the error of `y` on the MPI backend if
`y` fails sooner. -/
theorem C129_violated : ¬ C129_full := by
  intro h
  obtain ⟨gs, h1, h2⟩ := h exObjects [.get [0, 1] [(1, .exc ⟨8, true⟩), (0, .exc ⟨7, true⟩)]]
    (legal_one (by simp [AllReplied, Replies, exObjects])) (by simp [listsAsked, exObjects])
  have h3 : gs = [.raised ⟨8, true⟩] := by
    rw [show runMpi (fun _ => none) [.get [0, 1] [(1, .exc ⟨8, true⟩), (0, .exc ⟨7, true⟩)]] = some [.raised ⟨8, true⟩] from by decide] at h1
    simpa using h1.symm
  subst h3
  simp [listsAsked, getPymp, exObjects] at h2

/-- An exception whose truth value is false is returned as a value, and so is every other exception that arrives after it. -/
theorem C129_falsy_violated : ∃ (results : Nat → Option Obj) (ids : List Nat) (arr : List (Nat × Obj)) (s : Store),
    AllReplied results (fun _ => none) ids arr ∧
    getMpi (fun _ => none) ids arr = some (.values [.exc ⟨7, true⟩, .exc ⟨9, false⟩], s) ∧
    getPymp results ids = some (.raised ⟨7, true⟩) ∧ getPyseq results ids = .raised ⟨7, true⟩ :=
  ⟨exObjects, [0, 2], [(2, .exc ⟨9, false⟩), (0, .exc ⟨7, true⟩)], _, by simp [AllReplied, Replies, exObjects], rfl, rfl, rfl⟩

/-- An exception that was put is returned by `get` on the MPI backend and raised on the others. -/
theorem C129_put_violated : ∃ (results : Nat → Option Obj) (ops : List Op), LegalProgram results ops ∧ listsAsked ops = [[0]] ∧
    runMpi (fun _ => none) ops = some [.values [.exc ⟨7, true⟩]] ∧ getPymp results [0] = some (.raised ⟨7, true⟩) ∧
    getPyseq results [0] = .raised ⟨7, true⟩ := by
  refine ⟨exObjects, [.put 0 (.exc ⟨7, true⟩), .get [0] []], ?_, rfl, by decide, rfl, rfl⟩
  intro done op later he
  match done with
  | [] =>
    simp only [List.nil_append, List.cons.injEq] at he
    rw [← he.1]; rfl
  | [o] =>
    simp only [List.cons_append, List.nil_append, List.cons.injEq] at he
    obtain ⟨rfl, rfl, _⟩ := he
    simp [LegalOp, AllReplied, Replies, heldAfter, Op.mentions, exObjects]
  | _ :: _ :: d =>
    simp only [List.cons_append, List.cons.injEq] at he
    simp at he

/-- C129 on the multiprocessing backend: it ends exactly if there is a right answer, and gives it. -/
theorem C129_pymp_partial (results : Nat → Option Obj) (ids : List Nat) (g : Got) :
    getPymp results ids = some g ↔ AnswersList results ids g := by
  constructor
  · exact getPymp_sound ids g
  · intro h
    obtain ⟨g', hg'⟩ := Option.ne_none_iff_exists'.1 (getPymp_ends h)
    rw [hg', answersList_unique h (getPymp_sound ids g' hg')]

/-- C129 on the sequential backend: the answer is right unless an object is missing before the first error. -/
theorem C129_pyseq_partial (results : Nat → Option Obj) (ids : List Nat) (g : Got) :
    (getPyseq results ids = g ∧ g ≠ .missing) ↔ AnswersList results ids g := by
  rw [getPyseq_eq, C129_pymp_partial]

example : getPymp exObjects [3, 1, 0] = some (.raised ⟨8, true⟩) ∧ getPyseq exObjects [4, 3] = .values [.val 6, .val 5] ∧
    getPymp exObjects [9, 1] = none ∧ getPyseq exObjects [1, 9] = .raised ⟨8, true⟩ := by decide

/-- C129 on the MPI backend: exactly when `get` gives the right answer in whatever order the data arrives. No reference that has to be asked
for may be repeated, all objects must exist, and either nothing in the list has failed, or the first error of the list is an exception with
the truth value true, a reference with it has to be asked for, and no other exception has to be asked for. -/
theorem C129_exact_partial (results : Nat → Option Obj) (has : Store) (ids : List Nat)
    (hc : ∀ i o, has i = some o → results i = some o) :
    (∀ arr, AllReplied results has ids arr → ∃ g s, getMpi has ids arr = some (g, s) ∧ AnswersList results ids g) ↔
    (ids.filter fun i => (has i).isNone).Nodup ∧ (∀ i ∈ ids, results i ≠ none) ∧
    ((∀ i ∈ ids, ∀ e, results i ≠ some (.exc e)) ∨
     ∃ e, AnswersList results ids (.raised e) ∧ e.truthy = true ∧ (∃ i ∈ ids, has i = none ∧ results i = some (.exc e)) ∧
       ∀ i ∈ ids, has i = none → ∀ e', results i = some (.exc e') → e' = e) := by
  have hasked : (ids.filter fun i => (has i).isNone) = asked has ids := rfl
  rw [hasked]
  constructor
  · intro H
    obtain ⟨g0, s0, hg0, ha0⟩ := H _ (allReplied_answersFor (results := results) (has := has) (ids := ids)
      (l := (asked has ids).dedup) (List.nodup_dedup _) (fun i => List.mem_dedup))
    have har0 := allReplied_answersFor (results := results) (has := has) (ids := ids)
      (l := (asked has ids).dedup) (List.nodup_dedup _) (fun i => List.mem_dedup)
    have hlen : (answersFor results (asked has ids).dedup).length = (asked has ids).length := by
      have h1 := replies_len har0.1
      by_contra hne
      rw [getMpi_replies har0.1, if_pos (by omega)] at hg0
      simp at hg0
    obtain ⟨hn, hf⟩ := (replies_full har0.1).1 hlen
    have hex : ∀ i ∈ ids, results i ≠ none := fun i hi => (addAll_eq har0.1 hc hf hi).2
    refine ⟨hn, hex, ?_⟩
    by_cases hx : ∀ i ∈ ids, ∀ e, results i ≠ some (.exc e)
    · exact Or.inl hx
    · right
      -- the right answer is an error
      have hgr : ∃ e, g0 = .raised e := by
        cases g0 with
        | raised e => exact ⟨e, rfl⟩
        | unasked => exact ha0.elim
        | missing => exact ha0.elim
        | values os =>
          exfalso
          apply hx
          intro i hi e he
          obtain ⟨k, hk⟩ := List.mem_iff_getElem?.1 hi
          obtain ⟨n, h1, _⟩ := ha0.2 k i hk
          rw [he] at h1; simp at h1
      obtain ⟨e, rfl⟩ := hgr
      obtain ⟨os0, _, _, hcase⟩ := getMpi_full har0.1 hc hf hn
      have hfe : firstExc (answersFor results (asked has ids).dedup) = some e ∧ e.truthy = true := by
        rcases hcase with ⟨e', h1, h2, h3⟩ | ⟨_, h3⟩
        · rw [hg0] at h3
          simp at h3
          obtain ⟨rfl, _⟩ := h3
          exact ⟨h1, h2⟩
        · rw [hg0] at h3; simp at h3
      refine ⟨e, ha0, hfe.2, ?_, ?_⟩
      · obtain ⟨i, hi⟩ := firstExc_some hfe.1
        obtain ⟨h1, h2, h3⟩ := har0.1.2 _ hi
        exact ⟨i, h1, h2, h3⟩
      · intro i hi hh e' he'
        have hia : i ∈ asked has ids := mem_asked.2 ⟨hi, hh⟩
        have har1 := allReplied_answersFor (results := results) (has := has) (ids := ids) (l := i :: (asked has ids).erase i)
          (List.nodup_cons.2 ⟨fun hm => (hn.mem_erase_iff.1 hm).1 rfl, hn.erase i⟩)
          (fun j => by
            rw [List.mem_cons, hn.mem_erase_iff]
            constructor
            · rintro (rfl | h)
              · exact hia
              · exact h.2
            · intro h
              by_cases hj : j = i
              · exact Or.inl hj
              · exact Or.inr ⟨hj, h⟩)
        have hf1 : ∀ j ∈ ids, has j = none → j ∈ (answersFor results (i :: (asked has ids).erase i)).map Prod.fst :=
          fun j hj hjh => har1.2 j hj hjh (hex j hj)
        have hfirst : firstExc (answersFor results (i :: (asked has ids).erase i)) = some e' := by
          simp [answersFor, he', firstExc]
        obtain ⟨g1, s1, hg1, ha1⟩ := H _ har1
        have h4 := answersList_unique ha1 ha0
        subst h4
        obtain ⟨os1, _, _, hcase1⟩ := getMpi_full har1.1 hc hf1 hn
        rcases hcase1 with ⟨e'', h1, _, h3⟩ | ⟨_, h3⟩
        · rw [hg1] at h3
          simp at h3
          rw [hfirst] at h1
          simp at h1
          rw [h1, h3.1]
        · rw [hg1] at h3; simp at h3
  · rintro ⟨hn, hex, hcase⟩ arr har
    have hf : ∀ i ∈ ids, has i = none → i ∈ arr.map Prod.fst := fun i hi hh => har.2 i hi hh (hex i hi)
    obtain ⟨os, ho1, ho2, hget⟩ := getMpi_full har.1 hc hf hn
    rcases hcase with hx | ⟨e, ha, ht, ⟨i, hi, hh, hr⟩, hall⟩
    · rcases hget with ⟨e, h1, _, _⟩ | ⟨_, h3⟩
      · obtain ⟨j, hj⟩ := firstExc_some h1
        obtain ⟨h4, _, h6⟩ := har.1.2 _ hj
        exact absurd h6 (hx j h4 e)
      · exact ⟨_, _, h3, answersList_values ho1 ho2 hx⟩
    · have hfe : firstExc arr = some e := by
        cases hfe : firstExc arr with
        | none =>
          obtain ⟨m, hm, hmi⟩ := List.mem_map.1 (hf i hi hh)
          obtain ⟨j, o⟩ := m
          simp only at hmi
          subst hmi
          have := (har.1.2 _ hm).2.2
          simp only at this
          rw [hr] at this
          simp at this
          subst this
          exact absurd hm (firstExc_none hfe j e)
        | some e' =>
          obtain ⟨j, hj⟩ := firstExc_some hfe
          obtain ⟨h4, h5, h6⟩ := har.1.2 _ hj
          rw [hall j h4 h5 e' h6]
      rcases hget with ⟨e', h1, _, h3⟩ | ⟨h2, _⟩
      · rw [hfe] at h1
        simp at h1
        subst h1
        exact ⟨_, _, h3, ha⟩
      · have := h2 e hfe
        rw [ht] at this; simp at this

example : (∀ arr, AllReplied exObjects (fun _ => none) [3, 1, 4] arr →
    ∃ g s, getMpi (fun _ => none) [3, 1, 4] arr = some (g, s) ∧ AnswersList exObjects [3, 1, 4] g) := by
  refine (C129_exact_partial exObjects _ _ (by simp)).2 ⟨by decide, by decide, Or.inr ⟨⟨8, true⟩, ?_, rfl, ⟨1, by simp, rfl, rfl⟩, ?_⟩⟩
  · exact (C129_pymp_partial _ _ _).1 rfl
  · intro i hi _ e' he
    simp only [List.mem_cons, List.not_mem_nil, or_false] at hi
    rcases hi with rfl | rfl | rfl <;> simp [exObjects] at he
    exact he.symm

theorem held_put {results : Nat → Option Obj} {done : List Op} {i : Nat} {o : Obj} (h : results i = some o) :
    (heldAfter results done).add i o = heldAfter results (done ++ [.put i o]) := by
  funext j
  by_cases hj : j = i
  · subst hj; simp [Store.add, heldAfter, Op.mentions, h]
  · have : (i == j) = false := by simpa using fun h => hj h.symm
    simp [Store.add, heldAfter, Op.mentions, hj, this]

theorem held_get {results : Nat → Option Obj} {done : List Op} {ids : List Nat} {arr : List (Nat × Obj)}
    (h : AllReplied results (heldAfter results done) ids arr) (hex : ∀ i ∈ ids, results i ≠ none) :
    addAll (heldAfter results done) arr = heldAfter results (done ++ [.get ids arr]) := by
  have hc : ∀ i o, heldAfter results done i = some o → results i = some o := by
    intro i o hi
    simp only [heldAfter] at hi
    split at hi
    · exact hi
    · simp at hi
  funext j
  by_cases hj : j ∈ ids
  · rw [(addAll_eq h.1 hc (fun i hi hh => h.2 i hi hh (hex i hi)) hj).1]
    simp [heldAfter, Op.mentions, hj]
  · rw [addAll_notMem]
    · simp [heldAfter, Op.mentions, hj]
    · intro hm
      obtain ⟨m, hm', rfl⟩ := List.mem_map.1 hm
      exact hj (h.1.2 m hm').1

theorem program_from {results : Nat → Option Obj} : ∀ (ops done : List Op),
    (∀ d op later, ops = d ++ op :: later → LegalOp results (done ++ d) op) →
    (∀ ids ∈ listsAsked ops, ∀ i ∈ ids, results i ≠ none) →
    (∀ d ids arr later, ops = d ++ .get ids arr :: later →
      ∃ g s, getMpi (heldAfter results (done ++ d)) ids arr = some (g, s) ∧ AnswersList results ids g ∧
        s = addAll (heldAfter results (done ++ d)) arr) →
    ∃ gs, runMpi (heldAfter results done) ops = some gs ∧
      List.Forall₂ (fun ids g => AnswersList results ids g ∧ getPymp results ids = some g ∧ getPyseq results ids = g) (listsAsked ops) gs
  | [], _, _, _, _ => ⟨[], rfl, .nil⟩
  | .put i o :: ops, done, hl, hex, hg => by
      have h1 : results i = some o := by simpa [LegalOp] using hl [] _ ops rfl
      obtain ⟨gs, h2, h3⟩ := program_from ops (done ++ [.put i o])
        (fun d op later he => by simpa using hl (.put i o :: d) op later (by simp [he]))
        hex (fun d ids arr later he => by simpa using hg (.put i o :: d) ids arr later (by simp [he]))
      exact ⟨gs, by rw [runMpi, held_put h1]; exact h2, h3⟩
  | .get ids arr :: ops, done, hl, hex, hg => by
      have h1 : AllReplied results (heldAfter results done) ids arr := by simpa [LegalOp] using hl [] _ ops rfl
      obtain ⟨g, s, h4, h5, h6⟩ := hg [] ids arr ops rfl
      simp only [List.append_nil] at h4 h6
      obtain ⟨gs, h2, h3⟩ := program_from ops (done ++ [.get ids arr])
        (fun d op later he => by simpa using hl (.get ids arr :: d) op later (by simp [he]))
        (fun l hlm => hex l (by simp [listsAsked, hlm]))
        (fun d ids' arr' later he => by simpa using hg (.get ids arr :: d) ids' arr' later (by simp [he]))
      rw [h6, held_get h1 (fun i hi => hex ids (by simp [listsAsked]) i hi)] at h4
      refine ⟨g :: gs, by rw [runMpi, h4]; dsimp only; rw [h2], .cons ⟨h5, (C129_pymp_partial _ _ _).2 h5, ?_⟩ h3⟩
      exact ((C129_pyseq_partial results ids g).2 h5).1

/-- C129 for programs: the three backends give the same, right answers to all `get`s, in whatever order the data arrives, if no list
repeats a reference and at most one reference of a list has failed, with an exception whose truth value is true, which was neither put nor
asked for before. -/
theorem C129_program_partial (results : Nat → Option Obj) (ops : List Op) (hl : LegalProgram results ops)
    (hex : ∀ ids ∈ listsAsked ops, ids.Nodup ∧ ∀ i ∈ ids, results i ≠ none)
    (hone : ∀ done ids arr later, ops = done ++ .get ids arr :: later → ∀ i ∈ ids, ∀ e, results i = some (.exc e) →
      e.truthy = true ∧ (∀ op ∈ done, op.mentions i = false) ∧ ∀ j ∈ ids, ∀ e', results j = some (.exc e') → j = i) :
    ∃ gs, runMpi (fun _ => none) ops = some gs ∧
      List.Forall₂ (fun ids g => AnswersList results ids g ∧ getPymp results ids = some g ∧ getPyseq results ids = g) (listsAsked ops) gs := by
  have h0 : (fun _ => none : Store) = heldAfter results [] := by funext i; simp [heldAfter]
  rw [h0]
  refine program_from ops [] (fun d op later he => by simpa using hl d op later he) (fun ids hi => (hex ids hi).2) ?_
  intro d ids arr later he
  simp only [List.nil_append]
  have hmem : ids ∈ listsAsked ops := by
    rw [he]
    clear he hl hone hex
    induction d with
    | nil => simp [listsAsked]
    | cons o d ih => cases o <;> simp [listsAsked, ih]
  obtain ⟨hnd, hids⟩ := hex ids hmem
  have har : AllReplied results (heldAfter results d) ids arr := by simpa [LegalOp] using hl d _ later he
  have hc : ∀ i o, heldAfter results d i = some o → results i = some o := by
    intro i o hi
    simp only [heldAfter] at hi
    split at hi
    · exact hi
    · simp at hi
  have hex2 := (C129_exact_partial results (heldAfter results d) ids hc).2 ⟨hnd.filter _, hids, by
    by_cases hx : ∀ i ∈ ids, ∀ e, results i ≠ some (.exc e)
    · exact Or.inl hx
    · right
      simp only [not_forall, Classical.not_not] at hx
      obtain ⟨i, hi, e, hr⟩ := hx
      obtain ⟨ht, hnm, huniq⟩ := hone d ids arr later he i hi e hr
      have hh : heldAfter results d i = none := by
        simp only [heldAfter]
        rw [if_neg]
        simp only [List.any_eq_true, not_exists, not_and]
        intro op hop
        simp [hnm op hop]
      refine ⟨e, ?_, ht, ⟨i, hi, hh, hr⟩, ?_⟩
      · obtain ⟨k, hk⟩ := List.mem_iff_getElem?.1 hi
        refine ⟨k, i, hk, hr, ?_⟩
        intro j i' hj hji
        have hi' := List.mem_of_getElem? hji
        obtain ⟨o, ho⟩ := Option.ne_none_iff_exists'.1 (hids i' hi')
        cases o with
        | val n => exact ⟨n, ho⟩
        | exc e' =>
          have heq := huniq i' hi' e' ho
          subst heq
          have hk1 : k < ids.length := by
            by_contra hge
            rw [List.getElem?_eq_none (by omega)] at hk; simp at hk
          have := (List.Nodup.getElem_inj_iff hnd (i := j) (j := k) (hi := by omega) (hj := hk1)).1 (by
            rw [List.getElem?_eq_getElem (by omega)] at hji
            rw [List.getElem?_eq_getElem hk1] at hk
            simp at hji hk
            rw [hji, hk])
          omega
      · intro j hj _ e' he'
        have heq := huniq j hj e' he'
        subst heq
        rw [hr] at he'
        simp at he'
        exact he'.symm⟩ arr har
  obtain ⟨g, s, h1, h2⟩ := hex2
  refine ⟨g, s, h1, h2, ?_⟩
  rw [getMpi_replies har.1] at h1
  split at h1
  · simp at h1
  · split at h1
    · split at h1
      · simp at h1; exact h1.2.symm
      · split at h1 <;> (simp at h1; exact h1.2.symm)
    · split at h1 <;> (simp at h1; exact h1.2.symm)

example : ∃ gs, runMpi (fun _ => none) [.put 3 (.val 5), .get [4, 0, 3] [(0, .exc ⟨7, true⟩), (4, .val 6)], .get [4, 3] []] = some gs ∧
    gs = [.raised ⟨7, true⟩, .values [.val 6, .val 5]] := ⟨_, rfl, rfl⟩

end Verif.Props
