import Verif.Lemmas.Pyseq
import Verif.Props.Pymp

/-! Properties of the sequential backend (C71). -/
namespace Verif.Props
open Verif.Pymp (Val Ret Arg Target World Task Item)
open Verif.Spec.Pymp (Outcome Env meaning resolve apply)
open Verif.Spec.Pyseq
open Verif.Pyseq

/-! ## C71 -/

/-- **C71** as stated, for the references the program has got: getting one always gives the value or raises the error of the direct
calls. -/
def C71_full : Prop :=
  ∀ (W : World) (ops : List Op) (s : State) (os : List Out), run W State.init ops = some (s, os) →
    ∀ ids, Out.refs ids ∈ os → ∀ id ∈ ids,
      (∃ v, getOne s id = some (.ok v) ∧ (meaning W (calls 0 [] ops os)).val id = some (.value v)) ∨
      (∃ e, getOne s id = some (.error e) ∧ (meaning W (calls 0 [] ops os)).val id = some (.raised e))

/-- **C71** does not hold: a function that returns an exception object; getting its reference raises. -/
theorem C71_exception_violated : ¬ C71_full := by
  intro h
  obtain ⟨⟨s, os⟩, hr, hs⟩ := Option.map_eq_some_iff.1 (show (run pympWorld State.init [.submit 1 [] 1]).map
    (fun r => (decide ((getOne r.1 0).map (fun r => r.toOption) = some none), r.2)) = some (true, [.refs [0]]) by decide +kernel)
  simp only [Prod.mk.injEq, decide_eq_true_eq] at hs
  obtain ⟨hg, rfl⟩ := hs
  have hm : (meaning pympWorld (calls 0 [] [.submit 1 [] 1] [.refs [0]])).val 0 = some (.value (.exc 9)) := by decide +kernel
  rcases h _ _ _ _ hr [0] (by simp) 0 (by simp) with ⟨v, h1, h2⟩ | ⟨e, h1, h2⟩
  · rw [h1] at hg; simp [Except.toOption] at hg
  · rw [hm] at h2; simp at h2

/-- **C71** does not hold: an exception object that was put is raised by `get`. -/
theorem C71_put_violated : ¬ C71_full := by
  intro h
  obtain ⟨⟨s, os⟩, hr, hs⟩ := Option.map_eq_some_iff.1 (show (run pympWorld State.init [.put (.exc 4)]).map
    (fun r => (decide ((getOne r.1 0).map (fun r => r.toOption) = some none), r.2)) = some (true, [.refs [0]]) by decide +kernel)
  simp only [Prod.mk.injEq, decide_eq_true_eq] at hs
  obtain ⟨hg, rfl⟩ := hs
  have hm : (meaning pympWorld (calls 0 [] [.put (.exc 4)] [.refs [0]])).val 0 = some (.value (.exc 4)) := by decide +kernel
  rcases h _ _ _ _ hr [0] (by simp) 0 (by simp) with ⟨v, h1, h2⟩ | ⟨e, h1, h2⟩
  · rw [h1] at hg; simp [Except.toOption] at hg
  · rw [hm] at h2; simp at h2

/-- **C71**, for all programs: every reference gives what direct calls give, if exception objects count as raised whenever their
reference is read. Missing: that they come back as values. -/
theorem C71_read_partial (W : World) (ops : List Op) (s : State) (os : List Out) (hr : run W State.init ops = some (s, os))
    (ids : List Nat) (hi : Out.refs ids ∈ os) (id : Nat) (hid : id ∈ ids) :
    (∃ v, getOne s id = some (.ok v) ∧ (shown W (calls 0 [] ops os)).val id = some (.value v)) ∨
    (∃ e, getOne s id = some (.error e) ∧ (shown W (calls 0 [] ops os)).val id = some (.raised e)) := by
  have h := inv_run (inv_init W) hr
  obtain ⟨x, hx, hxm⟩ := refs_run hr hi hid
  obtain ⟨v, h1, h2⟩ := h.vals x hx id hxm
  have he : s.items = calls 0 [] ops os := by
    have := items_run hr
    simpa [State.init] using this
  rw [he] at h2
  simp only [getOne, h1, Option.map_some, Option.some.injEq]
  rw [h2]
  simp only [outcome, Option.some.injEq]
  cases check v <;> simp

/-- A function that returns an exception object, a pair with one as argument, an exception object that was put: each is raised when it
is read, also as an argument. -/
example : ((run pympWorld State.init [.submit 1 [] 1, .submit 4 [] 2, .put (.exc 4), .submit 7 [.ref 1, .ref 2] 1, .submit 7 [.ref 3] 1]).map fun r =>
      ((List.range 5).map fun id => ((getOne r.1 id).map (·.toOption)), r.2)) =
    some ([some none, some (some (.data 1)), some (some (.data 3)), some none, some (some (.data 11))],
      [.refs [0], .refs [1, 2], .refs [3], .refs [4], .raised (.user 4)]) := by decide +kernel

example : (List.range 5).map (shown pympWorld (calls 0 [] [.submit 1 [] 1, .submit 4 [] 2, .put (.exc 4), .submit 7 [.ref 1, .ref 2] 1,
      .submit 7 [.ref 3] 1] [.refs [0], .refs [1, 2], .refs [3], .refs [4], .raised (.user 4)])).val =
    [some (.raised 9), some (.value (.data 1)), some (.value (.data 3)), some (.raised 4), some (.value (.data 11))] := by
  decide +kernel

/-- **C71**, the rest: without exception objects as values every reference the program has got gives what direct calls give. -/
theorem C71_get_partial (W : World) (hW : NoExcWorld W) (ops : List Op) (hp : ∀ v, Op.put v ∈ ops → noExc v = true) (s : State)
    (os : List Out) (hr : run W State.init ops = some (s, os)) (ids : List Nat) (hi : Out.refs ids ∈ os) (id : Nat) (hid : id ∈ ids) :
    (∃ v, getOne s id = some (.ok v) ∧ (meaning W (calls 0 [] ops os)).val id = some (.value v)) ∨
    (∃ e, getOne s id = some (.error e) ∧ (meaning W (calls 0 [] ops os)).val id = some (.raised e)) := by
  rw [← shown_noExc hW fun id v h => hp v (puts_calls ops os 0 [] id v h)]
  exact C71_read_partial W ops s os hr ids hi id hid

/-- **C71**, submission, for all programs, exception objects counting as raised when their reference is read: the error of the first failed argument is raised; otherwise the function
is called with the values of the arguments (and of the earlier calls of the actor), and the caller gets `n` new references, unless
`n` is at least 2 and the result has fewer elements, which raises an error of indexing. -/
theorem C71_submit_read_partial (W : World) (ops : List Op) (s : State)
    (os : List Out) (hr : run W State.init ops = some (s, os)) (op : Op) (target : Target) (args : List Arg) (n : Nat)
    (hop : (∃ f, op = .submit f args n ∧ target = .fn f) ∨ (∃ a m cls hist, op = .method a m args n ∧ s.actors[a]? = some (cls, hist) ∧
      target = .method a cls m))
    (s' : State) (o : Out) (hs : step W s op = some (s', o)) :
    let E := shown W (calls 0 [] ops os)
    (∃ e, resolve E.val args = some (.error e) ∧ o = .raised (.user e) ∧ s' = s) ∨
    (∃ vs, resolve E.val args = some (.ok vs) ∧
      (∀ e, apply W E.hist vs target = .raise e → ∃ ids, o = .refs ids ∧ ids.length = n ∧ ids.Nodup ∧
        (∀ id ∈ ids, getOne s id = none ∧ ∃ r, getOne s' id = some (.error r) ∧ r = e)) ∧
      (∀ v items, apply W E.hist vs target = .ok v items →
        if n ≤ 1 ∨ ∃ l, items = some l ∧ n ≤ l.length then ∃ ids, o = .refs ids ∧ ids.length = n ∧ ids.Nodup ∧
          (∀ id ∈ ids, getOne s id = none ∧ getOne s' id ≠ none) else o = .raised .index)) := by
  have h := inv_run (inv_init W) hr
  have he : s.items = calls 0 [] ops os := by
    have := items_run hr
    simpa [State.init] using this
  rw [← he]
  intro E
  obtain ⟨hk, hm, hsub⟩ : known s args = true ∧ (∀ a c m, target = .method a c m → ∃ x, s.actors[a]? = some x) ∧
      submit W s target args n = some (s', o) := by
    rcases hop with ⟨f, rfl, rfl⟩ | ⟨a, m, cls, hist, rfl, hx, rfl⟩
    · simp only [step] at hs
      split at hs
      · rename_i hk; exact ⟨hk, by simp, hs⟩
      · cases hs
    · simp only [step, hx] at hs
      split at hs
      · rename_i hk
        refine ⟨hk, ?_, hs⟩
        intro a' c m' e
        simp only [Target.method.injEq] at e
        obtain ⟨rfl, -, -⟩ := e
        exact ⟨_, hx⟩
      · cases hs
  simp only [submit] at hsub
  rw [materialize_resolve h hk] at hsub
  split at hsub
  · cases hsub
  · rename_i e hres
    simp only [Option.some.injEq, Prod.mk.injEq] at hsub
    exact .inl ⟨e, hres, hsub.2.symm, hsub.1.symm⟩
  · rename_i vs hres
    refine .inr ⟨vs, hres, ?_⟩
    rw [hist_eq h vs target hm] at hsub
    have hnd : ((List.range n).map (s.store.length + ·)).Nodup := by
      rw [List.Nodup, List.pairwise_map]
      exact List.nodup_range.imp fun h => by omega
    have hold : ∀ id ∈ (List.range n).map (s.store.length + ·), getOne s id = none := by
      intro id hid
      rw [List.mem_map] at hid
      obtain ⟨i, -, rfl⟩ := hid
      simp [getOne]
    simp only [Option.some.injEq, Prod.mk.injEq] at hsub
    obtain ⟨rfl, rfl⟩ := hsub
    constructor
    · intro e hc
      rw [hc]
      refine ⟨_, by simp only [produced]; rfl, by simp, hnd, ?_⟩
      intro id hid
      refine ⟨hold id hid, e, ?_, rfl⟩
      rw [List.mem_map] at hid
      obtain ⟨i, hi, rfl⟩ := hid
      rw [List.mem_range] at hi
      simp only [getOne, produced]
      rw [List.getElem?_append_right (by omega), List.getElem?_replicate, if_pos (by omega)]
      rfl
    · intro v items hc
      rw [hc]
      have hok : (produced n (.ok v items)).2 = true ↔ (n ≤ 1 ∨ ∃ l, items = some l ∧ n ≤ l.length) := by
        match n with
        | 0 => simp [produced]
        | 1 => simp [produced]
        | n + 2 =>
          cases items with
          | none => simp [produced]
          | some l => simp [produced]
      by_cases hf : n ≤ 1 ∨ ∃ l, items = some l ∧ n ≤ l.length
      · rw [if_pos hf]
        have hb := hok.2 hf
        have hlen := (produced_results (ids := (List.range n).map (s.store.length + ·)) (by simp) hb).1
        refine ⟨_, by rw [if_pos hb], by simp, hnd, ?_⟩
        intro id hid
        refine ⟨hold id hid, ?_⟩
        rw [List.mem_map] at hid
        obtain ⟨i, hi, rfl⟩ := hid
        rw [List.mem_range] at hi
        simp only [getOne]
        rw [List.getElem?_append_right (by omega), List.getElem?_eq_getElem (by omega)]
        simp
      · rw [if_neg hf, if_neg (fun hb => hf (hok.1 hb))]

/-- **C71**, submission, without exception objects as values: the error of the first failed argument is raised; otherwise the function
is called with the values of the arguments (and of the earlier calls of the actor), and the caller gets `n` new references, unless
`n` is at least 2 and the result has fewer elements, which raises an error of indexing. -/
theorem C71_submit_partial (W : World) (hW : NoExcWorld W) (ops : List Op) (hp : ∀ v, Op.put v ∈ ops → noExc v = true) (s : State)
    (os : List Out) (hr : run W State.init ops = some (s, os)) (op : Op) (target : Target) (args : List Arg) (n : Nat)
    (hop : (∃ f, op = .submit f args n ∧ target = .fn f) ∨ (∃ a m cls hist, op = .method a m args n ∧ s.actors[a]? = some (cls, hist) ∧
      target = .method a cls m))
    (s' : State) (o : Out) (hs : step W s op = some (s', o)) :
    let E := meaning W (calls 0 [] ops os)
    (∃ e, resolve E.val args = some (.error e) ∧ o = .raised (.user e) ∧ s' = s) ∨
    (∃ vs, resolve E.val args = some (.ok vs) ∧
      (∀ e, apply W E.hist vs target = .raise e → ∃ ids, o = .refs ids ∧ ids.length = n ∧ ids.Nodup ∧
        (∀ id ∈ ids, getOne s id = none ∧ ∃ r, getOne s' id = some (.error r) ∧ r = e)) ∧
      (∀ v items, apply W E.hist vs target = .ok v items →
        if n ≤ 1 ∨ ∃ l, items = some l ∧ n ≤ l.length then ∃ ids, o = .refs ids ∧ ids.length = n ∧ ids.Nodup ∧
          (∀ id ∈ ids, getOne s id = none ∧ getOne s' id ≠ none) else o = .raised .index)) := by
  rw [← shown_noExc hW fun id v h => hp v (puts_calls ops os 0 [] id v h)]
  exact C71_submit_read_partial W ops s os hr op target args n hop s' o hs

/-- **C71**, `wait`: the first `n` references and the rest. By `C71_get_partial` all references have an outcome already. -/
theorem C71_wait (ids : List Nat) (n : Nat) (hn : n ≤ ids.length) :
    (wait ids n).1 ++ (wait ids n).2 = ids ∧ (wait ids n).1.length = n ∧ (wait ids n).2.length = ids.length - n ∧
      ∀ i, (wait ids n).1[i]? = if i < n then ids[i]? else none := by
  refine ⟨List.take_append_drop n ids, by simp [wait]; omega, by simp [wait], fun i => by simp [wait, List.getElem?_take]⟩

/-- **C71**: `get` of a list returns what `get` of each reference returns, in the same order, or raises what `get` of the first one that raises does. -/
theorem C71_get_list (s : State) (ids : List Nat) :
    (∀ vs, getList s ids = some (.ok vs) ↔ vs.length = ids.length ∧ ∀ (i id : Nat), ids[i]? = some id → ∃ v, vs[i]? = some v ∧ getOne s id = some (.ok v)) ∧
    ∀ e, getList s ids = some (.error e) ↔ ∃ pre id post, ids = pre ++ id :: post ∧ getOne s id = some (.error e) ∧
      ∀ j ∈ pre, ∃ v, getOne s j = some (.ok v) := by
  induction ids with
  | nil =>
    refine ⟨fun vs => ?_, fun e => ?_⟩
    · simp [getList, eq_comm]
    · simp [getList]
  | cons id ids ih =>
    obtain ⟨ih1, ih2⟩ := ih
    simp only [getList]
    cases hg : getOne s id with
    | none =>
      refine ⟨fun vs => ⟨by simp, fun ⟨_, h⟩ => ?_⟩, fun e => ⟨by simp, ?_⟩⟩
      · obtain ⟨v, -, h⟩ := h 0 id rfl; rw [hg] at h; simp at h
      · rintro ⟨pre, id', post, he, h1, h2⟩
        cases pre with
        | nil => simp only [List.nil_append, List.cons.injEq] at he; rw [← he.1, hg] at h1; simp at h1
        | cons p pre => simp only [List.cons_append, List.cons.injEq] at he; obtain ⟨v, h⟩ := h2 p (by simp); rw [← he.1, hg] at h; simp at h
    | some r =>
      cases r with
      | error e' =>
        refine ⟨fun vs => ⟨by simp, fun ⟨_, h⟩ => ?_⟩, fun e => ⟨fun h => ⟨[], id, ids, rfl, by simpa [hg] using h, by simp⟩, ?_⟩⟩
        · obtain ⟨v, -, h⟩ := h 0 id rfl; rw [hg] at h; simp at h
        · rintro ⟨pre, id', post, he, h1, h2⟩
          cases pre with
          | nil => simp only [List.nil_append, List.cons.injEq] at he; rw [← he.1, hg] at h1; simpa using h1
          | cons p pre => simp only [List.cons_append, List.cons.injEq] at he; obtain ⟨v, h⟩ := h2 p (by simp); rw [← he.1, hg] at h; simp at h
      | ok v =>
        refine ⟨fun vs => ?_, fun e => ?_⟩
        · constructor
          · intro h
            cases hl : getList s ids with
            | none => simp [hl] at h
            | some r =>
              cases r with
              | error e => simp [hl] at h
              | ok ws =>
                simp only [hl, Option.some.injEq, Except.ok.injEq] at h
                subst h
                obtain ⟨h1, h2⟩ := (ih1 ws).1 hl
                refine ⟨by simp [h1], fun i j hi => ?_⟩
                cases i with
                | zero => simp at hi; subst hi; exact ⟨v, rfl, hg⟩
                | succ i => exact h2 i j (by simpa using hi)
          · rintro ⟨h1, h2⟩
            cases vs with
            | nil => simp at h1
            | cons w ws =>
              obtain ⟨v', hv', hg'⟩ := h2 0 id rfl
              have hw : v = w := by rw [hg] at hg'; simp at hg' hv'; rw [hv', hg']
              have hl := (ih1 ws).2 ⟨by simpa using h1, fun i j hi => by simpa using h2 (i + 1) j (by simpa using hi)⟩
              simp [hl, hw]
        · constructor
          · intro h
            have hl : getList s ids = some (.error e) := by
              cases hl : getList s ids with
              | none => simp [hl] at h
              | some r =>
                cases r with
                | error e => simpa [hl] using h
                | ok ws => simp [hl] at h
            obtain ⟨pre, id', post, he, h1, h2⟩ := (ih2 e).1 hl
            exact ⟨id :: pre, id', post, by rw [he]; rfl, h1, fun j hj => by
              rcases List.mem_cons.1 hj with rfl | hj
              · exact ⟨v, hg⟩
              · exact h2 j hj⟩
          · rintro ⟨pre, id', post, he, h1, h2⟩
            cases pre with
            | nil => simp only [List.nil_append, List.cons.injEq] at he; rw [← he.1, hg] at h1; simp at h1
            | cons p pre =>
              simp only [List.cons_append, List.cons.injEq] at he
              have hl := (ih2 e).2 ⟨pre, id', post, he.2, h1, fun j hj => h2 j (by simp [hj])⟩
              simp [hl]

example : (run pympWorld State.init [.put (.data 7), .put (.data 8), .submit 5 [] 1, .submit 5 [] 1]).bind
    (fun r => (getList r.1 [1, 0, 1]).bind (·.toOption)) = some [.data 8, .data 7, .data 8] := by decide +kernel

example : (run pympWorld State.init [.put (.data 7), .submit 4 [] 2, .submit 6 [.ref 1, .ref 0] 1, .create 0, .method 0 1 [] 1, .method 0 1 [] 1]).map
    (fun r => (r.2, [0, 1, 2, 3, 4, 5].map fun id => (getOne r.1 id).bind (·.toOption))) =
    some ([.refs [0], .refs [1, 2], .refs [3], .refs [], .refs [4], .refs [5]],
      [some (.data 7), some (.data 1), some (.data 3), some (.data 14), some (.data 10), some (.data 11)]) := by decide +kernel

/-- A failed argument, and a result that is too short. -/
example : (run pympWorld State.init [.submit 5 [] 1, .submit 6 [.ref 0] 1, .submit 3 [] 2]).map (·.2) =
    some [.refs [0], .raised (.user 3), .raised .index] := by decide +kernel

example : wait [3, 1, 3, 2] 2 = ([3, 1], [3, 2]) := rfl

end Verif.Props
