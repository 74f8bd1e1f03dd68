import Verif.Spec.Pymp

/-! Helper lemmas about the meaning of programs of the multiprocessing backend. -/
namespace Verif.Spec.Pymp
open Verif.Pymp

/-- The references made by a list of calls are new and in order; arguments are older. -/
inductive Span : Nat → List Item → Nat → Prop
  | nil {n} : Span n [] n
  | skip {n m l hi} : n ≤ m → Span m l hi → Span n l hi
  | put {id v rest hi} : Span (id + 1) rest hi → Span id (.put id v :: rest) hi
  | task {t lo mid rest hi} : (∀ id, Arg.ref id ∈ t.args → id < lo) → (∀ o ∈ t.outs, lo ≤ o ∧ o < mid) → lo ≤ mid →
      t.outs.Nodup → Span mid rest hi → Span lo (.task t :: rest) hi

theorem Span.le {lo hi : Nat} {l : List Item} (h : Span lo l hi) : lo ≤ hi := by
  induction h <;> omega

theorem Span.append {lo mid hi : Nat} {l l' : List Item} (h : Span lo l mid) (h' : Span mid l' hi) : Span lo (l ++ l') hi := by
  induction h with
  | nil => exact h'
  | skip hle _ ih => exact .skip hle (ih h')
  | put _ ih => exact .put (ih h')
  | task h1 h2 h3 h4 _ ih => exact .task h1 h2 h3 h4 (ih h')

theorem Span.grow {lo hi hi' : Nat} {l : List Item} (h : Span lo l hi) (hle : hi ≤ hi') : Span lo l hi' := by
  have := h.append (.skip hle .nil)
  simpa using this

theorem Span.split {lo hi : Nat} {l l' : List Item} (h : Span lo (l ++ l') hi) : ∃ mid, Span lo l mid ∧ Span mid l' hi := by
  generalize hx : l ++ l' = x at h
  induction h generalizing l with
  | nil =>
    rename_i n
    have : l = [] ∧ l' = [] := by simpa using hx
    rw [this.1, this.2]
    exact ⟨n, .nil, .nil⟩
  | skip hle _ ih =>
    obtain ⟨mid, h1, h2⟩ := ih hx
    exact ⟨mid, .skip hle h1, h2⟩
  | put hs ih =>
    rename_i id v rest hi
    cases l with
    | nil => exact ⟨id, .nil, by rw [show l' = _ from hx]; exact .put hs⟩
    | cons a l =>
      simp only [List.cons_append, List.cons.injEq] at hx
      obtain ⟨rfl, hx⟩ := hx
      obtain ⟨mid, h1, h2⟩ := ih hx
      exact ⟨mid, .put h1, h2⟩
  | task h1 h2 h3 h4 hs ih =>
    rename_i t lo mid rest hi
    cases l with
    | nil => exact ⟨lo, .nil, by rw [show l' = _ from hx]; exact .task h1 h2 h3 h4 hs⟩
    | cons a l =>
      simp only [List.cons_append, List.cons.injEq] at hx
      obtain ⟨rfl, hx⟩ := hx
      obtain ⟨mid', g1, g2⟩ := ih hx
      exact ⟨mid', .task h1 h2 h3 h4 g1, g2⟩

theorem Span.task_inv {lo hi : Nat} {t : Task} {rest : List Item} (h : Span lo (.task t :: rest) hi) :
    ∃ lo' mid, lo ≤ lo' ∧ (∀ id, Arg.ref id ∈ t.args → id < lo') ∧ (∀ o ∈ t.outs, lo' ≤ o ∧ o < mid) ∧ lo' ≤ mid ∧
      t.outs.Nodup ∧ Span mid rest hi := by
  generalize hx : Item.task t :: rest = x at h
  induction h with
  | nil => simp at hx
  | skip hle _ ih =>
    obtain ⟨lo', mid, h1, h2⟩ := ih hx
    exact ⟨lo', mid, by omega, h2⟩
  | put => simp at hx
  | task h1 h2 h3 h4 hs ih =>
    rename_i t' lo mid rest' hi
    simp only [List.cons.injEq, Item.task.injEq] at hx
    obtain ⟨rfl, rfl⟩ := hx
    exact ⟨lo, mid, Nat.le_refl _, h1, h2, h3, h4, hs⟩

theorem Span.put_inv {lo hi id : Nat} {v : Val} {rest : List Item} (h : Span lo (.put id v :: rest) hi) :
    Span (id + 1) rest hi := by
  generalize hx : Item.put id v :: rest = x at h
  induction h with
  | nil => simp at hx
  | skip hle _ ih => exact ih hx
  | put hs _ =>
    simp only [List.cons.injEq, Item.put.injEq] at hx
    obtain ⟨⟨rfl, rfl⟩, rfl⟩ := hx
    exact hs
  | task => simp at hx

theorem add_other {val : Nat → Option Outcome} {l : List (Nat × Outcome)} {id : Nat} (h : id ∉ l.map (·.1)) :
    add val l id = val id := by
  have : (l.find? fun p => p.1 == id) = none := by
    rw [List.find?_eq_none]
    intro p hp hc
    simp only [beq_iff_eq] at hc
    exact h (List.mem_map.2 ⟨p, hp, hc⟩)
  simp [add, this]

theorem add_mem {val : Nat → Option Outcome} {l : List (Nat × Outcome)} {p : Nat × Outcome} (hn : (l.map (·.1)).Nodup)
    (h : p ∈ l) : add val l p.1 = some p.2 := by
  have : (l.find? fun q => q.1 == p.1) = some p := by
    induction l with
    | nil => simp at h
    | cons q l ih =>
      simp only [List.map_cons, List.nodup_cons] at hn
      rcases List.mem_cons.1 h with rfl | h
      · simp
      · have : q.1 ≠ p.1 := fun hc => hn.1 (hc ▸ List.mem_map.2 ⟨p, h, rfl⟩)
        simp [this, ih hn.2 h]
  simp [add, this]

theorem zip_keys {α : Type} : ∀ (outs : List Nat) (l : List α), (outs.zip l).map (·.1) <+: outs
  | [], _ => by simp
  | _ :: _, [] => by simp
  | o :: outs, x :: l => by simpa using zip_keys outs l

theorem results_keys {outs : List Nat} {r : Ret} : (results outs r).map (·.1) <+: outs := by
  cases r with
  | raise e =>
    simp only [results, List.map_map]
    rw [show ((fun x : Nat × Outcome => x.1) ∘ fun o => (o, Outcome.raised e)) = id from rfl, List.map_id]
    exact List.prefix_refl _
  | ok v items =>
    match outs, items with
    | [], _ => simp [results]
    | [o], _ => simp [results]
    | a :: b :: outs, some l =>
      exact zip_keys _ _
    | a :: b :: outs, none => simp [results]

theorem eval_val_other {W : World} {E : Env} {t : Task} {id : Nat} (h : id ∉ t.outs) : (eval W E (.task t)).val id = E.val id := by
  simp only [eval]
  split
  · rfl
  · exact add_other (by simpa using h)
  · exact add_other fun hc => h (results_keys.sublist.subset hc)

/-- Later calls do not change older references. -/
theorem stable {W : World} {lo hi : Nat} {l : List Item} (h : Span lo l hi) :
    ∀ (E : Env) (id : Nat), id < lo → (l.foldl (eval W) E).val id = E.val id := by
  induction h with
  | nil => intro E id _; rfl
  | skip hle _ ih => intro E id hid; exact ih E id (by omega)
  | put _ ih =>
    intro E id hid
    rw [List.foldl_cons, ih _ id (by omega)]
    exact add_other (by simp; omega)
  | task h1 h2 h3 h4 _ ih =>
    intro E id hid
    rw [List.foldl_cons, ih _ id (by omega)]
    exact eval_val_other fun hc => by have := (h2 id hc).1; omega

theorem resolve_congr {val val' : Nat → Option Outcome} {args : List Arg} (h : ∀ id, Arg.ref id ∈ args → val id = val' id) :
    resolve val args = resolve val' args := by
  induction args with
  | nil => rfl
  | cons a args ih =>
    have := ih fun id hid => h id (List.mem_cons_of_mem _ hid)
    cases a with
    | lit v => simp only [resolve, this]
    | ref id => simp only [resolve, this, h id (by simp)]

theorem resolve_append {val : Nat → Option Outcome} {pre rest : List Arg} {done : List Val}
    (h : resolve val pre = some (.ok done)) :
    resolve val (pre ++ rest) = (resolve val rest).map fun | .ok vs => .ok (done ++ vs) | .error e => .error e := by
  induction pre generalizing done with
  | nil =>
    simp only [resolve, Option.some.injEq, Except.ok.injEq] at h
    subst h
    cases hr : resolve val rest with
    | none => simp [hr]
    | some r => cases r <;> simp [hr]
  | cons a pre ih =>
    have step : ∀ (v : Val), (match resolve val pre with | some (.ok vs) => some (Except.ok (v :: vs)) | r => r) = some (.ok done) →
        (match resolve val (pre ++ rest) with | some (.ok vs) => some (Except.ok (v :: vs)) | r => r) =
          (resolve val rest).map fun | .ok vs => .ok (done ++ vs) | .error e => .error e := by
      intro v hv
      cases hp : resolve val pre with
      | none => simp [hp] at hv
      | some r =>
        cases r with
        | error e => simp [hp] at hv
        | ok vs =>
          simp only [hp, Option.some.injEq, Except.ok.injEq] at hv
          subst hv
          rw [ih hp]
          cases resolve val rest with
          | none => rfl
          | some r => cases r <;> rfl
    cases a with
    | lit v => exact step v h
    | ref id =>
      simp only [List.cons_append, resolve] at h ⊢
      cases hv : val id with
      | none => simp [hv] at h
      | some o =>
        cases o with
        | raised e => simp [hv] at h
        | value v => simp only [hv] at h ⊢; exact step v h

/-- The meaning of a program satisfies the equation of each of its tasks. -/
theorem task_equation {W : World} {pre post : List Item} {t : Task} {hi : Nat} (h : Span 0 (pre ++ .task t :: post) hi) :
    let E := meaning W (pre ++ .task t :: post)
    resolve E.val t.args = resolve (meaning W pre).val t.args ∧
    (∀ o ∈ t.outs, E.val o = (eval W (meaning W pre) (.task t)).val o) ∧ t.outs.Nodup := by
  obtain ⟨mid, h1, h2⟩ := h.split
  obtain ⟨lo', mid', k1, k2, k3, k4, k5, k6⟩ := h2.task_inv
  simp only [meaning, List.foldl_append, List.foldl_cons]
  refine ⟨?_, ?_, k5⟩
  · apply resolve_congr
    intro id hid
    rw [stable k6 _ id (by have := k2 id hid; omega)]
    exact eval_val_other fun hc => by have := k2 id hid; have := (k3 id hc).1; omega
  · intro o ho
    exact stable k6 _ o (k3 o ho).2

/-- And of each put. -/
theorem put_equation {W : World} {pre post : List Item} {id hi : Nat} {v : Val} (h : Span 0 (pre ++ .put id v :: post) hi) :
    (meaning W (pre ++ .put id v :: post)).val id = some (.value v) := by
  obtain ⟨mid, h1, h2⟩ := h.split
  simp only [meaning, List.foldl_append, List.foldl_cons]
  rw [stable h2.put_inv _ id (by omega)]
  simp [eval, add]

/-- A call changes only the history of its own actor. -/
theorem eval_hist_other {W : World} {E : Env} {t : Task} {a : Nat} (h : ∀ c m, t.target ≠ .method a c m) :
    (eval W E (.task t)).hist a = E.hist a := by
  simp only [eval]
  split
  · rfl
  · rfl
  · cases ht : t.target with
    | fn f => rfl
    | method b c m =>
      have : a ≠ b := fun hc => h c m (by rw [hc, ht])
      simp [remember, this]

theorem meaning_snoc {W : World} (l : List Item) (x : Item) : meaning W (l ++ [x]) = eval W (meaning W l) x := by
  simp [meaning]

/-! The same for the evaluation with the treatment of values by the store. -/

theorem seenResults_keys {W : World} {outs : List Nat} {r : Ret} : (seenResults W outs r).map (·.1) <+: outs := by
  cases r with
  | raise e =>
    simp only [seenResults, List.map_map]
    rw [show ((fun x : Nat × Outcome => x.1) ∘ fun o => (o, Outcome.raised e)) = id from rfl, List.map_id]
    exact List.prefix_refl _
  | ok v items =>
    match outs, items with
    | [], _ => simp [seenResults]
    | [o], _ => simp [seenResults]
    | a :: b :: outs, some l =>
      exact zip_keys _ _
    | a :: b :: outs, none => simp [seenResults]

theorem seenEval_val_other {W : World} {E : Env} {t : Task} {id : Nat} (h : id ∉ t.outs) : (seenEval W E (.task t)).val id = E.val id := by
  simp only [seenEval]
  split
  · rfl
  · exact add_other (by simpa using h)
  · exact add_other fun hc => h (seenResults_keys.sublist.subset hc)

/-- Later calls do not change older references. -/
theorem seen_stable {W : World} {lo hi : Nat} {l : List Item} (h : Span lo l hi) :
    ∀ (E : Env) (id : Nat), id < lo → (l.foldl (seenEval W) E).val id = E.val id := by
  induction h with
  | nil => intro E id _; rfl
  | skip hle _ ih => intro E id hid; exact ih E id (by omega)
  | put _ ih =>
    intro E id hid
    rw [List.foldl_cons, ih _ id (by omega)]
    exact add_other (by simp; omega)
  | task h1 h2 h3 h4 _ ih =>
    intro E id hid
    rw [List.foldl_cons, ih _ id (by omega)]
    exact seenEval_val_other fun hc => by have := (h2 id hc).1; omega

/-- The seen outcome of a program satisfies the equation of each of its tasks. -/
theorem seen_task {W : World} {pre post : List Item} {t : Task} {hi : Nat} (h : Span 0 (pre ++ .task t :: post) hi) :
    let E := seen W (pre ++ .task t :: post)
    resolve E.val t.args = resolve (seen W pre).val t.args ∧
    (∀ o ∈ t.outs, E.val o = (seenEval W (seen W pre) (.task t)).val o) ∧ t.outs.Nodup := by
  obtain ⟨mid, h1, h2⟩ := h.split
  obtain ⟨lo', mid', k1, k2, k3, k4, k5, k6⟩ := h2.task_inv
  simp only [seen, List.foldl_append, List.foldl_cons]
  refine ⟨?_, ?_, k5⟩
  · apply resolve_congr
    intro id hid
    rw [seen_stable k6 _ id (by have := k2 id hid; omega)]
    exact seenEval_val_other fun hc => by have := k2 id hid; have := (k3 id hc).1; omega
  · intro o ho
    exact seen_stable k6 _ o (k3 o ho).2

/-- And of each put. -/
theorem seen_put {W : World} {pre post : List Item} {id hi : Nat} {v : Val} (h : Span 0 (pre ++ .put id v :: post) hi) :
    (seen W (pre ++ .put id v :: post)).val id = some (putBack W v) := by
  obtain ⟨mid, h1, h2⟩ := h.split
  simp only [seen, List.foldl_append, List.foldl_cons]
  rw [seen_stable h2.put_inv _ id (by omega)]
  simp [seenEval, add]

/-- A call changes only the history of its own actor. -/
theorem seenEval_hist_other {W : World} {E : Env} {t : Task} {a : Nat} (h : ∀ c m, t.target ≠ .method a c m) :
    (seenEval W E (.task t)).hist a = E.hist a := by
  simp only [seenEval]
  split
  · rfl
  · rfl
  · cases ht : t.target with
    | fn f => rfl
    | method b c m =>
      have : a ≠ b := fun hc => h c m (by rw [hc, ht])
      simp [remember, this]

theorem seen_snoc {W : World} (l : List Item) (x : Item) : seen W (l ++ [x]) = seenEval W (seen W l) x := by
  simp [seen]

end Verif.Spec.Pymp
