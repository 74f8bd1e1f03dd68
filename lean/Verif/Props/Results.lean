import Verif.Model.Results

/-!
# The backends agree on the results of a call; what is put on the Dask backend can be read

The expected result of a call is stated without the model of the backends: a call with `k` results gives `k` references, the `i`-th of
which holds the `i`-th item of the returned sequence.
-/
namespace Verif.Props
open Verif.Results

/-! ## C99 -/

/-- C99: every backend gives the same for every remote function and number of results. -/
def C99_full : Prop :=
  ∀ (loads : List Nat → Option Item) (k : Nat) (r : Ending) (b b' : Backend), call loads b k r = call loads b' k r

/-- A function that returns two values although three are announced: `get` of the third reference never returns on two backends, raises
`IndexError` on Dask, and on the Python Sequential backend the call itself raises. -/
theorem C99_too_few_violated (loads : List Nat → Option Item) :
    call loads .mpi 3 (.returns (.seq [.int 7, .int 8])) = .many [.value (.one (.int 7)), .value (.one (.int 8)), .never] ∧
    call loads .pymp 3 (.returns (.seq [.int 7, .int 8])) = .many [.value (.one (.int 7)), .value (.one (.int 8)), .never] ∧
    call loads .dask 3 (.returns (.seq [.int 7, .int 8])) =
      .many [.value (.one (.int 7)), .value (.one (.int 8)), .error .index] ∧
    call loads .pyseq 3 (.returns (.seq [.int 7, .int 8])) = .raises .index := by
  refine ⟨by rfl, by rfl, by rfl, by rfl⟩

/-- A function with two results that returns a dictionary: two backends give the keys, the others the values. -/
theorem C99_dictionary_violated (loads : List Nat → Option Item) :
    call loads .mpi 2 (.returns (.dict [(1, .int 10), (0, .int 20)])) = .many [.value (.one (.int 1)), .value (.one (.int 0))] ∧
    call loads .pymp 2 (.returns (.dict [(1, .int 10), (0, .int 20)])) = .many [.value (.one (.int 1)), .value (.one (.int 0))] ∧
    call loads .pyseq 2 (.returns (.dict [(1, .int 10), (0, .int 20)])) = .many [.value (.one (.int 20)), .value (.one (.int 10))] ∧
    call loads .dask 2 (.returns (.dict [(1, .int 10), (0, .int 20)])) =
      .many [.value (.one (.int 20)), .value (.one (.int 10))] := by
  refine ⟨by rfl, by rfl, by rfl, by rfl⟩

/-- A generator gives two results on two backends, an exception on the others. -/
theorem C99_generator_violated (loads : List Nat → Option Item) :
    call loads .mpi 2 (.returns (.iter [.int 7, .int 8] none)) = .many [.value (.one (.int 7)), .value (.one (.int 8))] ∧
    call loads .pymp 2 (.returns (.iter [.int 7, .int 8] none)) = .many [.value (.one (.int 7)), .value (.one (.int 8))] ∧
    call loads .pyseq 2 (.returns (.iter [.int 7, .int 8] none)) = .raises .type ∧
    call loads .dask 2 (.returns (.iter [.int 7, .int 8] none)) = .many [.error .type, .error .type] := by
  refine ⟨by rfl, by rfl, by rfl, by rfl⟩

/-- A function with two results that returns a single object: two backends never answer, the others raise. -/
theorem C99_not_iterable_violated (loads : List Nat → Option Item) :
    call loads .mpi 2 (.returns (.one (.int 7))) = .many [.never, .never] ∧
    call loads .pymp 2 (.returns (.one (.int 7))) = .many [.never, .never] ∧
    call loads .pyseq 2 (.returns (.one (.int 7))) = .raises .type ∧
    call loads .dask 2 (.returns (.one (.int 7))) = .many [.error .type, .error .type] := by
  refine ⟨by rfl, by rfl, by rfl, by rfl⟩

/-- A function that returns an exception instance: `get` returns it on Dask and raises it on the other backends. -/
theorem C99_exception_value_violated (loads : List Nat → Option Item) :
    (∀ b, b ≠ .dask → call loads b 1 (.returns (.one (.exc 5))) = .single (.error (.user 5))) ∧
    call loads .dask 1 (.returns (.one (.exc 5))) = .single (.value (.one (.exc 5))) := by
  refine ⟨fun b h => ?_, by rfl⟩
  cases b
  · rfl
  · rfl
  · rfl
  · exact absurd rfl h

/-- A function that returns `bytes`: `get` unpickles them on the Python Multiprocessing backend, and raises if they are no pickle. -/
theorem C99_bytes_violated (loads : List Nat → Option Item) (bs : List Nat) :
    (∀ b, b ≠ .pymp → call loads b 1 (.returns (.one (.bytes bs))) = .single (.value (.one (.bytes bs)))) ∧
    (loads bs = none → call loads .pymp 1 (.returns (.one (.bytes bs))) = .single (.error .unpickling)) ∧
    ∀ x, loads bs = some x → call loads .pymp 1 (.returns (.one (.bytes bs))) = .single (.value (.one x)) := by
  refine ⟨fun b h => ?_, fun h => by simp [call, single, getStoredPymp, h], fun x h => by simp [call, single, getStoredPymp, h]⟩
  cases b
  · rfl
  · exact absurd rfl h
  · rfl
  · rfl

theorem C99_agreement_violated : ¬ C99_full := by
  intro h
  have := h (fun _ => none) 2 (.returns (.iter [.int 7, .int 8] none)) .mpi .pyseq
  rw [(C99_generator_violated _).1, (C99_generator_violated _).2.2.1] at this
  cases this

/-- Objects that every backend treats alike: no exception instances and no `bytes`. -/
def Ordinary : Item → Prop
  | .int _ => True
  | .exc _ => False
  | .bytes _ => False

theorem manyMpi_seq {k : Nat} {xs : List Item} (hk : k ≤ xs.length) (ho : ∀ x ∈ xs.take k, Ordinary x) :
    manyMpi k (.returns (.seq xs)) = (xs.take k).map fun x => .value (.one x) := by
  have h0 : k - xs.length = 0 := by omega
  simp only [manyMpi, iterate, Option.isSome_none, Bool.false_and, Bool.false_eq_true, if_false, h0, List.replicate_zero, List.append_nil]
  refine List.map_congr_left fun x hx => ?_
  have := ho x hx
  cases x <;> first | rfl | exact this.elim

theorem manyPymp_seq {loads : List Nat → Option Item} {k : Nat} {xs : List Item} (hk : k ≤ xs.length)
    (ho : ∀ x ∈ xs.take k, Ordinary x) :
    manyPymp loads k (.returns (.seq xs)) = (xs.take k).map fun x => .value (.one x) := by
  have h0 : k - xs.length = 0 := by omega
  simp only [manyPymp, iterate, h0, List.replicate_zero, List.append_nil]
  refine List.map_congr_left fun x hx => ?_
  have := ho x hx
  cases x <;> first | rfl | exact this.elim

theorem subscripts_seq (xs : List Item) : ∀ (k i : Nat), i + k ≤ xs.length → subscripts (.seq xs) i k = .ok ((xs.drop i).take k)
  | 0, _, _ => by simp [subscripts]
  | k + 1, i, h => by
    have hi : i < xs.length := by omega
    rw [subscripts, subscripts_seq xs k (i + 1) (by omega), List.drop_eq_getElem_cons hi, List.take_succ_cons]
    simp [subscript, List.getElem?_eq_getElem hi]

theorem manyPyseq_seq {k : Nat} {xs : List Item} (hk : k ≤ xs.length) (ho : ∀ x ∈ xs.take k, Ordinary x) :
    manyPyseq k (.returns (.seq xs)) = .many ((xs.take k).map fun x => .value (.one x)) := by
  simp only [manyPyseq]
  rw [subscripts_seq xs k 0 (by omega)]
  simp only [List.drop_zero]
  congr 1
  refine List.map_congr_left fun x hx => ?_
  have := ho x hx
  cases x <;> first | rfl | exact this.elim

theorem manyPyseq_raises (k e : Nat) : manyPyseq k (.raises e) = .many (List.replicate k (.error (.user e))) := by
  simp only [manyPyseq]
  rw [subscripts_seq _ k 0 (by simp)]
  simp [getStored]

theorem manyDask_seq {k : Nat} {xs : List Item} (hk : k ≤ xs.length) :
    manyDask k (.returns (.seq xs)) = (xs.take k).map fun x => .value (.one x) := by
  refine List.ext_getElem (by simp [manyDask]; omega) fun i h1 h2 => ?_
  have hi : i < xs.length := by simp [manyDask] at h1; omega
  simp [manyDask, subscript, List.getElem?_eq_getElem hi]

/-- C99 for functions that return what they announce: no result gives `None`, one result one reference to it, and `k ≥ 2` results of a
sequence with at least `k` items, none of the first `k` of which is an exception instance or `bytes`, give `k` references, the `i`-th of
which holds the `i`-th item. This holds on all four backends. -/
theorem C99_results_partial (loads : List Nat → Option Item) (b : Backend) :
    (∀ r, call loads b 0 r = .none) ∧
    (∀ x, Ordinary x → call loads b 1 (.returns (.one x)) = .single (.value (.one x))) ∧
    (∀ v, (∀ x, v ≠ .one x) → call loads b 1 (.returns v) = .single (.value v)) ∧
    (∀ k xs, 2 ≤ k → k ≤ xs.length → (∀ x ∈ xs.take k, Ordinary x) →
      ∃ gs : List Got, call loads b k (.returns (.seq xs)) = .many gs ∧ gs.length = k ∧
        ∀ i x, i < k → xs[i]? = some x → gs[i]? = some (.value (.one x))) := by
  refine ⟨fun r => rfl, fun x hx => ?_, fun v hv => ?_, fun k xs hk hl ho => ?_⟩
  · cases x <;> first | exact hx.elim | (cases b <;> rfl)
  · cases v with
    | one x => exact absurd rfl (hv x)
    | seq xs => cases b <;> rfl
    | iter xs r => cases b <;> rfl
    | dict kvs => cases b <;> rfl
  · refine ⟨(xs.take k).map fun x => .value (.one x), ?_, by simp; omega, fun i x hi hx => ?_⟩
    · obtain ⟨k, rfl⟩ : ∃ j, k = j + 2 := ⟨k - 2, by omega⟩
      cases b
      · exact congrArg Outcome.many (manyMpi_seq hl ho)
      · exact congrArg Outcome.many (manyPymp_seq hl ho)
      · exact manyPyseq_seq hl ho
      · exact congrArg Outcome.many (manyDask_seq hl)
    · simp [hi, hx]

/-- C99 for functions that raise: on all four backends `get` of every reference raises what the function raised. -/
theorem C99_errors_partial (loads : List Nat → Option Item) (b : Backend) (e : Nat) :
    call loads b 1 (.raises e) = .single (.error (.user e)) ∧
    ∀ k, 2 ≤ k → ∃ gs : List Got, call loads b k (.raises e) = .many gs ∧ gs.length = k ∧ ∀ g ∈ gs, g = .error (.user e) := by
  refine ⟨by cases b <;> rfl, fun k hk => ⟨List.replicate k (.error (.user e)), ?_, by simp, fun g hg => List.eq_of_mem_replicate hg⟩⟩
  obtain ⟨k, rfl⟩ : ∃ j, k = j + 2 := ⟨k - 2, by omega⟩
  cases b
  · rfl
  · rfl
  · exact manyPyseq_raises _ e
  · exact congrArg Outcome.many (by simp [manyDask, List.map_const'])

/-- C99 for sequences of any length: whatever the function returns in a sequence, an exception instance among the items or too few items
included, no backend gives a wrong item: if `get` of the `i`-th reference returns a value that did not come out of `pkl.loads`, it is the
`i`-th item. -/
theorem C99_no_wrong_item_partial (loads : List Nat → Option Item) (b : Backend) (k : Nat) (hk : 2 ≤ k) (xs : List Item)
    (hb : b = .pymp → ∀ bs, .bytes bs ∉ xs) (gs : List Got) (hc : call loads b k (.returns (.seq xs)) = .many gs)
    (i : Nat) (v : Value) (hg : gs[i]? = some (.value v)) : ∃ x, xs[i]? = some x ∧ v = .one x := by
  obtain ⟨k, rfl⟩ : ∃ j, k = j + 2 := ⟨k - 2, by omega⟩
  generalize hm : k + 2 = m at *
  have stored : ∀ x v, getStored (.one x) = .value v → v = .one x := by
    intro x v h
    cases x <;> simp_all [getStored]
  cases b with
  | mpi =>
    have hc : Outcome.many (manyMpi m (.returns (.seq xs))) = .many gs := by subst hm; exact hc
    injection hc with hc
    subst hc
    simp only [manyMpi, iterate, Option.isSome_none, Bool.false_and, Bool.false_eq_true, if_false] at hg
    rw [List.getElem?_append] at hg
    split at hg
    · rw [List.getElem?_map, List.getElem?_take] at hg
      split at hg
      · obtain ⟨x, hx, h⟩ := Option.map_eq_some_iff.1 hg
        exact ⟨x, hx, stored x v h⟩
      · simp at hg
    · rw [List.getElem?_replicate] at hg
      split at hg <;> simp at hg
  | pymp =>
    have hc : Outcome.many (manyPymp loads m (.returns (.seq xs))) = .many gs := by subst hm; exact hc
    injection hc with hc
    subst hc
    simp only [manyPymp, iterate] at hg
    rw [List.getElem?_append] at hg
    split at hg
    · rw [List.getElem?_map, List.getElem?_take] at hg
      split at hg
      · obtain ⟨x, hx, h⟩ := Option.map_eq_some_iff.1 hg
        refine ⟨x, hx, ?_⟩
        cases x with
        | bytes bs => exact absurd (List.mem_of_getElem? hx) (hb rfl bs)
        | int n => simpa [getStoredPymp] using h.symm
        | exc e => simp [getStoredPymp] at h
      · simp at hg
    · rw [List.getElem?_replicate] at hg
      split at hg <;> simp at hg
  | pyseq =>
    have hc : manyPyseq m (.returns (.seq xs)) = .many gs := by subst hm; exact hc
    have sub : ∀ (k j : Nat) (ys : List Item), subscripts (.seq xs) j k = .ok ys → ∀ i, i < k → ys[i]? = xs[j + i]? := by
      intro k
      induction k with
      | zero => intro j ys _ i hi; omega
      | succ k ih =>
        intro j ys h i hi
        rw [subscripts] at h
        simp only [subscript] at h
        cases hx : xs[j]? with
        | none => simp [hx] at h
        | some x =>
          simp only [hx] at h
          cases hr : subscripts (.seq xs) (j + 1) k with
          | error err => simp [hr] at h
          | ok zs =>
            simp only [hr, Except.ok.injEq] at h
            subst h
            cases i with
            | zero => simp [hx]
            | succ i =>
              have := ih (j + 1) zs hr i (by omega)
              simp only [List.getElem?_cons_succ, this]
              congr 1
              omega
    have len : ∀ (k j : Nat) (ys : List Item), subscripts (.seq xs) j k = .ok ys → ys.length = k := by
      intro k
      induction k with
      | zero => intro j ys h; simp [subscripts] at h; simp [← h]
      | succ k ih =>
        intro j ys h
        rw [subscripts] at h
        cases hx : subscript (.seq xs) j with
        | error err => simp [hx] at h
        | ok x =>
          simp only [hx] at h
          cases hr : subscripts (.seq xs) (j + 1) k with
          | error err => simp [hr] at h
          | ok zs =>
            simp only [hr, Except.ok.injEq] at h
            subst h
            simp [ih _ _ hr]
    simp only [manyPyseq] at hc
    cases hs : subscripts (.seq xs) 0 m with
    | error err => simp [hs] at hc
    | ok ys =>
      simp only [hs, Outcome.many.injEq] at hc
      subst hc
      rw [List.getElem?_map] at hg
      obtain ⟨x, hx, h⟩ := Option.map_eq_some_iff.1 hg
      have hi : i < m := by
        have := (List.getElem?_eq_some_iff.1 hx).1
        rw [len _ _ _ hs] at this
        exact this
      have := sub m 0 ys hs i hi
      rw [Nat.zero_add] at this
      exact ⟨x, by rw [← this, hx], stored x v h⟩
  | dask =>
    have hc : Outcome.many (manyDask m (.returns (.seq xs))) = .many gs := by subst hm; exact hc
    injection hc with hc
    subst hc
    simp only [manyDask, List.getElem?_map] at hg
    obtain ⟨j, hj, h⟩ := Option.map_eq_some_iff.1 hg
    obtain rfl : i = j := by
      rw [List.getElem?_range (by have := (List.getElem?_eq_some_iff.1 hj).1; simpa using this)] at hj
      exact Option.some.inj hj
    cases hx : xs[i]? with
    | none => simp [subscript, hx] at h
    | some x =>
      simp only [subscript, hx, Got.value.injEq] at h
      exact ⟨x, rfl, h.symm⟩

/-- An object that all backends give back: no exception instance, and no `bytes` that unpickle to something else. -/
def Alike (loads : List Nat → Option Item) (x : Item) : Prop := (∀ e, x ≠ .exc e) ∧ ∀ bs, x = .bytes bs → loads bs = some x

theorem alike_stored {loads : List Nat → Option Item} {x : Item} (h : Alike loads x) :
    getStored (.one x) = .value (.one x) ∧ getStoredPymp loads (.one x) = .value (.one x) := by
  cases x with
  | int n => exact ⟨rfl, rfl⟩
  | exc e => exact absurd rfl (h.1 e)
  | bytes bs => exact ⟨rfl, by simp [getStoredPymp, h.2 bs rfl]⟩

theorem stored_alike {loads : List Nat → Option Item} {x : Item} (h1 : getStored (.one x) = .value (.one x))
    (h2 : getStoredPymp loads (.one x) = .value (.one x)) : Alike loads x := by
  cases x with
  | int n => exact ⟨by simp, by simp⟩
  | exc e => simp [getStored] at h1
  | bytes bs =>
    refine ⟨by simp, fun b hb => ?_⟩
    injection hb with hb
    subst hb
    simp only [getStoredPymp] at h2
    cases hl : loads bs with
    | none => rw [hl] at h2; simp at h2
    | some y => rw [hl] at h2; simpa using h2

/-- C99 for one result, exactly: the backends agree if the function raises, returns something else than a single object, or an object that is no
exception instance and no `bytes` that unpickle to something else. -/
theorem C99_one_exactly_partial (loads : List Nat → Option Item) (r : Ending) :
    (∀ b b', call loads b 1 r = call loads b' 1 r) ↔ ∀ x, r = .returns (.one x) → Alike loads x := by
  constructor
  · rintro h x rfl
    have h1 := h .mpi .dask
    have h2 := h .pymp .dask
    simp only [call, single, Outcome.single.injEq] at h1 h2
    exact stored_alike h1 h2
  · intro h b b'
    have key : ∀ b, call loads b 1 r = call loads .dask 1 r := by
      intro b
      cases r with
      | raises e => cases b <;> rfl
      | returns v =>
        cases v with
        | one x =>
          obtain ⟨h1, h2⟩ := alike_stored (h x rfl)
          cases b <;> simp [call, single, h1, h2]
        | seq xs => cases b <;> rfl
        | iter xs e => cases b <;> rfl
        | dict kvs => cases b <;> rfl
    rw [key b, key b']

/-- C99 for several results in a sequence, exactly: the backends agree if there are enough items and each of those that count is such an object. -/
theorem C99_sequence_exactly_partial (loads : List Nat → Option Item) (k : Nat) (hk : 2 ≤ k) (xs : List Item) :
    (∀ b b', call loads b k (.returns (.seq xs)) = call loads b' k (.returns (.seq xs))) ↔
      k ≤ xs.length ∧ ∀ i x, i < k → xs[i]? = some x → Alike loads x := by
  obtain ⟨k, rfl⟩ : ∃ j, k = j + 2 := ⟨k - 2, by omega⟩
  have em : call loads .mpi (k + 2) (.returns (.seq xs)) = .many (manyMpi (k + 2) (.returns (.seq xs))) := rfl
  have ep : call loads .pymp (k + 2) (.returns (.seq xs)) = .many (manyPymp loads (k + 2) (.returns (.seq xs))) := rfl
  have ed : call loads .dask (k + 2) (.returns (.seq xs)) = .many (manyDask (k + 2) (.returns (.seq xs))) := rfl
  have es : call loads .pyseq (k + 2) (.returns (.seq xs)) = manyPyseq (k + 2) (.returns (.seq xs)) := rfl
  generalize k + 2 = m at *
  have hmp : manyMpi m (.returns (.seq xs)) = (xs.take m).map (fun x => getStored (.one x)) ++ List.replicate (m - xs.length) .never := by
    simp [manyMpi, iterate]
  have hpp : manyPymp loads m (.returns (.seq xs)) =
      (xs.take m).map (fun x => getStoredPymp loads (.one x)) ++ List.replicate (m - xs.length) .never := by
    simp [manyPymp, iterate]
  constructor
  · intro h
    have h1 : manyMpi m (.returns (.seq xs)) = manyDask m (.returns (.seq xs)) := by
      have := h .mpi .dask; rw [em, ed] at this; injection this
    have h2 : manyPymp loads m (.returns (.seq xs)) = manyDask m (.returns (.seq xs)) := by
      have := h .pymp .dask; rw [ep, ed] at this; injection this
    have hl : m ≤ xs.length := by
      refine Classical.byContradiction fun hn => ?_
      have h3 := congrArg (·[xs.length]?) h1
      simp only [hmp, manyDask] at h3
      rw [List.getElem?_append_right (by simp; omega), List.getElem?_replicate, List.getElem?_map, List.getElem?_range (by omega)] at h3
      have hlt : 0 < m - xs.length := by omega
      have hmin : min m xs.length = xs.length := by omega
      simp [subscript, hmin, hlt] at h3
    refine ⟨hl, fun i x hi hx => ?_⟩
    have hlen : i < xs.length := by omega
    have hz : m - xs.length = 0 := by omega
    have g1 := congrArg (·[i]?) h1
    have g2 := congrArg (·[i]?) h2
    rw [manyDask_seq hl] at g1 g2
    simp only [hmp, hpp, hz, List.replicate_zero, List.append_nil, List.getElem?_map, List.getElem?_take, hi, if_true, hx,
      Option.map_some, Option.some.injEq] at g1 g2
    exact stored_alike g1 g2
  · rintro ⟨hl, h⟩ b b'
    have hz : m - xs.length = 0 := by omega
    have hall : ∀ x ∈ xs.take m, Alike loads x := by
      intro x hx
      obtain ⟨i, hi, rfl⟩ := List.getElem_of_mem hx
      rw [List.length_take] at hi
      exact h i _ (by omega) (by rw [List.getElem_take, List.getElem?_eq_getElem (by omega)])
    have e1 : (xs.take m).map (fun x => getStored (.one x)) = (xs.take m).map fun x => .value (.one x) :=
      List.map_congr_left fun x hx => (alike_stored (hall x hx)).1
    have e2 : (xs.take m).map (fun x => getStoredPymp loads (.one x)) = (xs.take m).map fun x => .value (.one x) :=
      List.map_congr_left fun x hx => (alike_stored (hall x hx)).2
    have key : ∀ b, call loads b m (.returns (.seq xs)) = .many ((xs.take m).map fun x => .value (.one x)) := by
      intro b
      cases b
      · rw [em, hmp, e1, hz]; simp
      · rw [ep, hpp, e2, hz]; simp
      · rw [es]
        simp only [manyPyseq]
        rw [subscripts_seq xs m 0 (by omega)]
        simp only [List.drop_zero, e1]
      · rw [ed, manyDask_seq hl]
    rw [key b, key b']

/-- `bytes` that unpickle to something else make the backends disagree, in second place too. -/
example : ¬ ∀ b b', call (fun _ => none) b 2 (.returns (.seq [.int 7, .bytes [1]])) = call (fun _ => none) b' 2 (.returns (.seq [.int 7, .bytes [1]])) :=
  fun h => by have := (((C99_sequence_exactly_partial _ 2 (by decide) _).1 h).2 1 (.bytes [1]) (by decide) rfl).2 [1] rfl; simp at this

/-- Two results of a function that returns a list of three. -/
example (loads : List Nat → Option Item) (b : Backend) :
    ∃ gs : List Got, call loads b 2 (.returns (.seq [.int 7, .int 8, .exc 9])) = .many gs ∧ gs.length = 2 ∧
      gs[1]? = some (.value (.one (.int 8))) := by
  obtain ⟨gs, h1, h2, h3⟩ := (C99_results_partial loads b).2.2.2 2 [.int 7, .int 8, .exc 9] (by decide) (by decide)
    (by intro x hx; simp at hx; rcases hx with rfl | rfl <;> trivial)
  exact ⟨gs, h1, h2, h3 1 (.int 8) (by decide) rfl⟩

/-- A function with three results raises. -/
example (loads : List Nat → Option Item) : call loads .pyseq 3 (.raises 4) = .many [.error (.user 4), .error (.user 4), .error (.user 4)] := by
  obtain ⟨gs, h1, h2, h3⟩ := (C99_errors_partial loads .pyseq 4).2 3 (by decide)
  rw [h1]
  match gs, h2, h3 with
  | [a, b, c], _, h3 => simp at h3; simp [h3]

/-- Two items for three references: what the second reference gives is the second item. -/
example (loads : List Nat → Option Item) (v : Value)
    (h : ([.value (.one (.int 7)), .value (.one (.int 8)), .never] : List Got)[1]? = some (.value v)) : v = .one (.int 8) := by
  obtain ⟨x, hx, rfl⟩ := C99_no_wrong_item_partial loads .mpi 3 (by decide) [.int 7, .int 8] (by simp) _ rfl 1 v h
  simp at hx
  rw [← hx]

/-! ## C100 -/

/-- C100: what is put on the Dask backend is what `get` of its reference returns. -/
def C100_full : Prop := ∀ d : Data, daskGet (scatter d) = some d

/-- `get` of the reference of a tuple, a set or a dictionary, even an empty one, raises `AttributeError`; a range and an iterator come
back as lists. -/
theorem C100_containers_violated :
    (∀ xs, daskGet (scatter (.tuple xs)) = none) ∧ (∀ xs, daskGet (scatter (.set xs)) = none) ∧
    (∀ kvs, daskGet (scatter (.dict kvs)) = none) ∧ daskGet (scatter (.range 3)) = some (.list [0, 1, 2]) ∧
    daskGet (scatter (.iterator [5, 6])) = some (.list [5, 6]) :=
  ⟨fun _ => rfl, fun _ => rfl, fun _ => rfl, rfl, rfl⟩

theorem C100_put_get_violated : ¬ C100_full := by
  intro h
  have := h (.tuple [1])
  rw [C100_containers_violated.1] at this
  cases this

/-- C100 for all objects that are no tuple, set, dictionary, range or iterator. -/
theorem C100_put_get_partial (d : Data)
    (hd : (∀ xs, d ≠ .tuple xs) ∧ (∀ xs, d ≠ .set xs) ∧ (∀ kvs, d ≠ .dict kvs) ∧ (∀ n, d ≠ .range n) ∧ (∀ xs, d ≠ .iterator xs)) :
    daskGet (scatter d) = some d := by
  obtain ⟨h1, h2, h3, h4, h5⟩ := hd
  cases d with
  | scalar n => rfl
  | list xs => rfl
  | tuple xs => exact absurd rfl (h1 xs)
  | set xs => exact absurd rfl (h2 xs)
  | dict kvs => exact absurd rfl (h3 kvs)
  | range n => exact absurd rfl (h4 n)
  | iterator xs => exact absurd rfl (h5 xs)

/-- C100 for a list of references: all objects but ranges and iterators come back. -/
theorem C100_put_get_list_partial (ds : List Data) (hd : ∀ d ∈ ds, (∀ n, d ≠ .range n) ∧ ∀ xs, d ≠ .iterator xs) :
    daskGetMany (ds.map scatter) = some ds := by
  simp only [daskGetMany, List.map_map, Option.some.injEq]
  refine (List.map_congr_left fun d hm => ?_).trans (List.map_id ds)
  obtain ⟨h4, h5⟩ := hd d hm
  cases d with
  | range n => exact absurd rfl (h4 n)
  | iterator xs => exact absurd rfl (h5 xs)
  | _ => rfl

/-- C100, exactly: these are the only objects that do not come back. -/
theorem C100_put_get_exactly_partial (d : Data) : daskGet (scatter d) = some d ↔ (∃ n, d = .scalar n) ∨ ∃ xs, d = .list xs := by
  cases d <;> simp [scatter, daskGet, gather]

/-- C100, exactly, for a list of references. -/
theorem C100_put_get_list_exactly_partial (ds : List Data) :
    daskGetMany (ds.map scatter) = some ds ↔ ∀ d ∈ ds, (∀ n, d ≠ .range n) ∧ ∀ xs, d ≠ .iterator xs := by
  refine ⟨fun h d hd => ?_, C100_put_get_list_partial ds⟩
  simp only [daskGetMany, List.map_map, Option.some.injEq] at h
  have h := List.map_inj_left.1 (h.trans (List.map_id ds).symm) d hd
  cases d <;> simp [scatter, gather] at h ⊢

/-- Of a tuple and a range one comes back changed. -/
example : daskGetMany ([Data.tuple [1], .range 2].map scatter) ≠ some [.tuple [1], .range 2] := fun h =>
  ((C100_put_get_list_exactly_partial _).1 h (.range 2) (by simp)).1 2 rfl

/-- A list put is a list when read. -/
example : daskGet (scatter (.list [4, 5])) = some (.list [4, 5]) :=
  C100_put_get_partial _ ⟨by simp, by simp, by simp, by simp, by simp⟩

/-- A tuple and a dictionary can be read together although neither can be read alone. -/
example : daskGetMany [scatter (.tuple [1]), scatter (.dict [(1, 2)])] = some [.tuple [1], .dict [(1, 2)]] :=
  C100_put_get_list_partial [.tuple [1], .dict [(1, 2)]] (by simp)

/-- C99 for iterables that cannot be subscripted, with items that are no exception instances and no `bytes`: multiprocessing gives
the items there are, also those before an exception; on MPI an exception before the last announced item loses all of them; the
others refuse them. -/
theorem C99_iterable_partial (loads : List Nat → Option Item) (k : Nat) (hk : 2 ≤ k) (xs : List Item) (r : Option Nat)
    (hx : ∀ x ∈ xs.take k, Ordinary x) :
    (∃ gs : List Got, call loads .pymp k (.returns (.iter xs r)) = .many gs ∧ gs.length = k ∧
      ∀ i < k, gs[i]? = some (((xs[i]?).map fun x => Got.value (.one x)).getD .never)) ∧
    (∃ gs : List Got, call loads .mpi k (.returns (.iter xs r)) = .many gs ∧ gs.length = k ∧
      (r ≠ none → xs.length < k → ∀ g ∈ gs, g = .never) ∧
      (r = none ∨ k ≤ xs.length → ∀ i < k, gs[i]? = some (((xs[i]?).map fun x => Got.value (.one x)).getD .never))) ∧
    call loads .pyseq k (.returns (.iter xs r)) = .raises .type ∧
    call loads .dask k (.returns (.iter xs r)) = .many (List.replicate k (.error .type)) := by
  obtain ⟨k, rfl⟩ : ∃ j, k = j + 2 := ⟨k - 2, by omega⟩
  generalize hm : k + 2 = n at *
  have ep : call loads .pymp n (.returns (.iter xs r)) = .many (manyPymp loads n (.returns (.iter xs r))) := by rw [← hm]; rfl
  have em : call loads .mpi n (.returns (.iter xs r)) = .many (manyMpi n (.returns (.iter xs r))) := by rw [← hm]; rfl
  have ed : call loads .dask n (.returns (.iter xs r)) = .many (manyDask n (.returns (.iter xs r))) := by rw [← hm]; rfl
  have h1 : (xs.take n).map (fun x => getStored (.one x)) = (xs.take n).map fun x => Got.value (.one x) :=
    List.map_congr_left fun x hm => by have := hx x hm; cases x <;> first | exact this.elim | rfl
  have h2 : (xs.take n).map (fun x => getStoredPymp loads (.one x)) = (xs.take n).map fun x => Got.value (.one x) :=
    List.map_congr_left fun x hm => by have := hx x hm; cases x <;> first | exact this.elim | rfl
  have hlen : ((xs.take n).map (fun x => Got.value (.one x)) ++ List.replicate (n - xs.length) Got.never).length = n := by simp; omega
  have hget : ∀ i < n, ((xs.take n).map (fun x => Got.value (.one x)) ++ List.replicate (n - xs.length) Got.never)[i]? =
      some (((xs[i]?).map fun x => Got.value (.one x)).getD .never) := by
    intro i hi
    by_cases hc : i < xs.length
    · rw [List.getElem?_append_left (by simp; omega)]
      simp [hi, List.getElem?_eq_getElem hc]
    · rw [List.getElem?_append_right (by simp; omega)]
      simp only [List.getElem?_eq_none (Nat.not_lt.1 hc), Option.map_none, Option.getD_none, List.getElem?_replicate, List.length_map,
        List.length_take]
      rw [if_pos (by omega)]
  refine ⟨⟨_, ep, ?_, ?_⟩, ⟨_, em, ?_, ?_, ?_⟩, ?_, ?_⟩
  · simp only [manyPymp, iterate, h2]; exact hlen
  · simp only [manyPymp, iterate, h2]; exact hget
  · simp only [manyMpi, iterate, h1]; split
    · simp
    · exact hlen
  · intro hr hl g hg
    obtain ⟨e, rfl⟩ := Option.ne_none_iff_exists'.1 hr
    simp only [manyMpi, iterate, Option.isSome_some, hl, decide_true, Bool.and_self, if_true] at hg
    exact List.eq_of_mem_replicate hg
  · intro h
    simp only [manyMpi, iterate, h1]
    rw [if_neg (by rcases h with rfl | h <;> simp; omega)]
    exact hget
  · rw [← hm]; rfl
  · rw [ed]; simp [manyDask, subscript, List.map_const']

/-- Three items are announced, the generator raises after two: two can be read on multiprocessing, none on MPI. -/
example (loads : List Nat → Option Item) :
    call loads .mpi 3 (.returns (.iter [.int 7, .int 8] (some 5))) = .many [.never, .never, .never] ∧
    call loads .pymp 3 (.returns (.iter [.int 7, .int 8] (some 5))) = .many [.value (.one (.int 7)), .value (.one (.int 8)), .never] := by
  exact ⟨rfl, rfl⟩

end Verif.Props
