import Verif.Lemmas.Pymp

/-! Helper lemmas about runs of the multiprocessing backend: values in the store. -/
namespace Verif.Pymp
open Verif.Spec.Pymp

theorem readBack_eq (W : World) (v : Val) : readBack W v = match getVal W v with | .ok u => .value u | .error e => .raised e := by
  cases v with
  | bytes b => simp only [readBack, getVal]; rfl
  | _ => rfl

theorem putBack_eq (W : World) (v : Val) : putBack W v = readBack W (putVal W v) := by
  cases v <;> rfl

theorem readBack_plain {W : World} {v : Val} (h : plain v = true) : readBack W v = .value v := by
  cases v <;> simp_all [plain, readBack]

theorem putBack_plain {W : World} (hW : PlainWorld W) {v : Val} (h : plain v = true) : putBack W v = .value v := by
  cases v with
  | data n => rfl
  | callable c => simp [putBack, readBack, hW.pickle]
  | bytes b => simp [plain] at h
  | exc e => simp [plain] at h

/-- The task is a call of a method of the actor. -/
def isOf (a : Nat) (t : Task) : Prop := ∃ c m, t.target = .method a c m

/-- What a worker knows in each phase. -/
def PhaseOk (W : World) (val : Nat → Option Outcome) (t : Task) : Phase → Prop
  | .fetch done rest => ∃ pre, t.args = pre ++ rest ∧ resolve val pre = some (.ok done)
  | .running vs => resolve val t.args = some (.ok vs)
  | .write todo => ∀ p ∈ todo, p.1 ∈ t.outs ∧ val p.1 = some (readBack W p.2)

/-- Stored and fetched values are those of the sequential meaning. -/
structure Vals (W : World) (s : State) : Prop where
  store : ∀ id v, s.store id = some (.val v) → (seen W s.items).val id = some (readBack W v)
  cur : ∀ (w : Nat) (x : Worker), s.workers[w]? = some x → ∀ t ph, x.cur = some (t, ph) → PhaseOk W (seen W s.items).val t ph
  hist : ∀ (a : Nat) (x : Actor), s.actors[a]? = some x → ∃ p, p ≤ s.items.length ∧
    x.hist = (seen W (s.items.take p)).hist a ∧
    (∀ y : Worker, s.workers[x.worker]? = some y → ∀ t ∈ pend y, isOf a t → p ≤ t.idx) ∧
    (∀ i t, p ≤ i → s.items[i]? = some (.task t) → isOf a t → ∃ y : Worker, s.workers[x.worker]? = some y ∧ t ∈ pend y)

theorem phaseOk_congr {W : World} {val val' : Nat → Option Outcome} {t : Task} {ph : Phase} (h : PhaseOk W val t ph)
    (ha : ∀ id, Arg.ref id ∈ t.args → val id = val' id) (ho : ∀ o ∈ t.outs, val o = val' o) : PhaseOk W val' t ph := by
  cases ph with
  | fetch done rest =>
    obtain ⟨pre, h1, h2⟩ := h
    refine ⟨pre, h1, ?_⟩
    rw [← h2]
    exact (resolve_congr fun id hid => ha id (by rw [h1]; exact List.mem_append_left _ hid)).symm
  | running vs =>
    simp only [PhaseOk] at h ⊢
    rw [← h]
    exact (resolve_congr ha).symm
  | write todo =>
    intro p hp
    refine ⟨(h p hp).1, ?_⟩
    rw [← ho p.1 (h p hp).1]
    exact (h p hp).2

theorem meaning_below {W : World} {items ext : List Item} {lo hi id : Nat} (h : Span lo ext hi) (hid : id < lo) :
    (meaning W (items ++ ext)).val id = (meaning W items).val id := by
  simp only [meaning, List.foldl_append]
  exact stable h _ id hid

theorem seen_below {W : World} {items ext : List Item} {lo hi id : Nat} (h : Span lo ext hi) (hid : id < lo) :
    (seen W (items ++ ext)).val id = (seen W items).val id := by
  simp only [seen, List.foldl_append]
  exact seen_stable h _ id hid

theorem span_new_task {s : State} {t : Task} {k : Nat} (ho : t.outs = newIds s k)
    (ha : ∀ id, Arg.ref id ∈ t.args → id < s.next) : Span s.next [.task t] (s.next + k) := by
  refine .task ha ?_ (by omega) (by rw [ho]; exact newIds_nodup) .nil
  intro o hm
  rw [ho] at hm
  exact mem_newIds.1 hm

theorem vals_init (W : World) (n : Nat) : Vals W (State.init n) := by
  refine ⟨by simp [State.init], ?_, by simp [State.init]⟩
  intro w x h t ph hc
  simp only [State.init, List.getElem?_replicate] at h
  split at h
  · simp only [Option.some.injEq] at h; subst h; cases hc
  · cases h

theorem cur_ext {W : World} {n : Nat} {s : State} {ext : List Item} {hi : Nat} (hs : Shape n s) (hv : Vals W s)
    (hx : Span s.next ext hi) {w : Nat} {x : Worker} (h : s.workers[w]? = some x) {t : Task} {ph : Phase} (hc : x.cur = some (t, ph)) :
    PhaseOk W (seen W (s.items ++ ext)).val t ph := by
  have hm := List.mem_of_getElem? (hs.idx w x h t (by simp [tasks, hc, held]))
  exact phaseOk_congr (hv.cur w x h t ph hc) (fun id hid => (seen_below hx (hs.span.args_lt hm id hid)).symm)
    (fun o ho => (seen_below hx (hs.span.outs_lt hm o ho)).symm)

theorem store_ext {W : World} {n : Nat} {s : State} {ext : List Item} {hi : Nat} (hs : Shape n s) (hv : Vals W s)
    (hx : Span s.next ext hi) {id : Nat} {v : Val} (h : s.store id = some (.val v)) :
    (seen W (s.items ++ ext)).val id = some (readBack W v) := by
  have : id < s.next := by
    apply Classical.byContradiction
    intro hc
    rw [hs.fresh id (by omega)] at h
    cases h
  rw [seen_below hx this]
  exact hv.store id v h

theorem vals_outer {W : World} {n : Nat} {s s' : State} (hs : Shape n s) (hv : Vals W s) (h : Outer W n s s') : Vals W s' := by
  cases h with
  | put v =>
    have hx : Span s.next [Item.put s.next v] (s.next + 1) := .put .nil
    refine ⟨?_, ?_, ?_⟩
    · intro id u hu
      simp only [upd] at hu
      by_cases e : id = s.next
      · subst e
        simp only [if_true, Option.some.injEq, Cell.val.injEq] at hu
        subst hu
        rw [seen_put (post := []) (hs.span.put_snoc v), putBack_eq]
      · rw [if_neg e] at hu
        exact store_ext hs hv hx hu
    · intro w x hw t ph hc
      exact cur_ext hs hv hx hw hc
    · intro a x hxa
      obtain ⟨p, h1, h2, h3, h4⟩ := hv.hist a x hxa
      refine ⟨p, by simp only [List.length_append]; omega, ?_, h3, ?_⟩
      · simp only; rw [List.take_append_of_le_length h1]; exact h2
      · intro i t hi ht ho
        simp only [List.getElem?_append] at ht
        split at ht
        · exact h4 i t hi ht ho
        · have := List.mem_of_getElem? ht
          simp at this
  | refuse k pool hpool =>
    refine ⟨?_, hv.cur, hv.hist⟩
    intro id v h
    simp only at h
    rw [delayAll_apply] at h
    split at h
    · cases h
    · exact hv.store id v h
  | task t w k pool hpool hw hi ho ha hg ht =>
    have hx := span_new_task ho ha
    refine ⟨?_, ?_, ?_⟩
    · intro id v h
      simp only at h
      rw [delayAll_apply] at h
      split at h
      · cases h
      · exact store_ext hs hv hx h
    · intro v x hvx u ph hc
      simp only at hvx
      rw [addTask_getElem] at hvx
      obtain ⟨y, hy, rfl⟩ := Option.map_eq_some_iff.1 hvx
      have hc' : y.cur = some (u, ph) := by
        by_cases e : w = v
        · simpa [e] using hc
        · simpa [e] using hc
      exact cur_ext hs hv hx hy hc'
    · intro a x hxa
      obtain ⟨p, h1, h2, h3, h4⟩ := hv.hist a x hxa
      refine ⟨p, by simp only [List.length_append]; omega, ?_, ?_, ?_⟩
      · simp only; rw [List.take_append_of_le_length h1]; exact h2
      · intro y hy u hu hof
        simp only at hy
        rw [addTask_getElem] at hy
        obtain ⟨z, hz, rfl⟩ := Option.map_eq_some_iff.1 hy
        by_cases e : w = x.worker
        · rw [if_pos e, pend_push, List.mem_append, List.mem_singleton] at hu
          rcases hu with hu | rfl
          · exact h3 z hz u hu hof
          · rw [hi]; exact h1
        · rw [if_neg e] at hu
          exact h3 z hz u hu hof
      · intro i u hpi hu hof
        simp only at hu ⊢
        rw [List.getElem?_append] at hu
        split at hu
        · obtain ⟨y, hy, hm⟩ := h4 i u hpi hu hof
          refine ⟨_, by rw [addTask_getElem, hy]; rfl, ?_⟩
          by_cases e : w = x.worker
          · simp only [e, if_true]; rw [pend_push]; exact List.mem_append_left _ hm
          · simp only [e, if_false]; exact hm
        · have hm := List.mem_of_getElem? hu
          simp only [List.mem_singleton, Item.task.injEq] at hm
          subst hm
          obtain ⟨c, m, e⟩ := hof
          obtain ⟨x', hx', e'⟩ := ht a c m e
          rw [hxa] at hx'
          simp only [Option.some.injEq] at hx'
          subst hx'
          have hlt : x.worker < s.workers.length := by rw [hs.lenW]; exact hs.actorW a x hxa
          refine ⟨_, by rw [addTask_getElem, List.getElem?_eq_getElem hlt]; rfl, ?_⟩
          simp only [e', if_true]
          rw [pend_push]
          simp
  | admin pool actors hpool h1 h2 =>
    refine ⟨hv.store, hv.cur, ?_⟩
    intro a y hy
    rcases h1 a y hy with ⟨x, hx, e1, e2⟩ | ⟨hnone, e, -⟩
    · obtain ⟨p, k1, k2, k3, k4⟩ := hv.hist a x hx
      rw [e1] at k3 k4
      exact ⟨p, k1, e2 ▸ k2, k3, k4⟩
    · refine ⟨0, by simp, by simp [e, seen, Env.empty], by simp, ?_⟩
      intro i t _ ht hof
      obtain ⟨c, m, e'⟩ := hof
      obtain ⟨z, hz⟩ := hs.target t (List.mem_of_getElem? ht) a c m e'
      rw [hnone] at hz
      cases hz

/-! ## Workers -/

theorem hist_between {W : World} {a : Nat} {items : List Item} {p q : Nat} (hpq : p ≤ q)
    (h : ∀ i t, p ≤ i → i < q → items[i]? = some (.task t) → ¬ isOf a t) :
    (seen W (items.take q)).hist a = (seen W (items.take p)).hist a := by
  induction q with
  | zero => rw [Nat.le_zero.1 hpq]
  | succ q ih =>
    by_cases e : p = q + 1
    · rw [e]
    · have := ih (by omega) fun i t h1 h2 => h i t h1 (by omega)
      by_cases hl : q < items.length
      · rw [List.take_succ_eq_append_getElem hl, seen_snoc, ← this]
        cases hi : items[q] with
        | put id v => rfl
        | task t =>
          refine seenEval_hist_other fun c m hc => ?_
          exact h q t (by omega) (by omega) (by rw [List.getElem?_eq_getElem hl, hi]) ⟨c, m, hc⟩
      · rw [← this, List.take_of_length_le (by omega), List.take_of_length_le (by omega)]

theorem items_split {items : List Item} {i : Nat} {x : Item} (h : items[i]? = some x) :
    items = items.take i ++ x :: items.drop (i + 1) := by
  obtain ⟨hl, e⟩ := List.getElem?_eq_some_iff.1 h
  rw [← e, ← List.drop_eq_getElem_cons hl]
  exact (List.take_append_drop i items).symm

theorem take_succ_of {items : List Item} {i : Nat} {x : Item} (h : items[i]? = some x) :
    items.take (i + 1) = items.take i ++ [x] := by
  obtain ⟨hl, e⟩ := List.getElem?_eq_some_iff.1 h
  rw [← e, List.take_succ_eq_append_getElem hl]

/-- The first pending task of a worker finds its actor as the sequential meaning says. -/
theorem hist_now {W : World} {n : Nat} {s : State} (hs : Shape n s) (hv : Vals W s) {w : Nat} {x : Worker}
    (h : s.workers[w]? = some x) {t : Task} {rest : List Task} (hp : pend x = t :: rest) {a : Nat} (hof : isOf a t)
    {y : Actor} (hy : s.actors[a]? = some y) : y.worker = w ∧ y.hist = (seen W (s.items.take t.idx)).hist a := by
  have hmem : t ∈ tasks x := (pend_sub x).subset (by rw [hp]; simp)
  obtain ⟨c, m, e⟩ := hof
  obtain ⟨y', hy', e'⟩ := hs.home w x h t hmem a c m e
  rw [hy] at hy'
  simp only [Option.some.injEq] at hy'
  subst hy'
  refine ⟨e', ?_⟩
  obtain ⟨p, h1, h2, h3, h4⟩ := hv.hist a y hy
  rw [h2]
  have hpt := h3 x (by rw [e']; exact h) t (by rw [hp]; simp) ⟨c, m, e⟩
  refine (hist_between hpt ?_).symm
  intro i u hpi hit hu hofu
  obtain ⟨x', hx', hm⟩ := h4 i u hpi hu hofu
  rw [e', h] at hx'
  simp only [Option.some.injEq] at hx'
  subst hx'
  have hsort := (hs.sorted w x h).sublist ((pend_sub x).map _)
  rw [hp] at hm hsort
  simp only [List.map_cons, List.pairwise_cons] at hsort
  have hui : u.idx = i := hs.place i u hu
  rcases List.mem_cons.1 hm with rfl | hm'
  · omega
  · have := hsort.1 u.idx (List.mem_map.2 ⟨u, hm', rfl⟩)
    omega

theorem set_getElem {ws : List Worker} {w : Nat} {x x' : Worker} (h : ws[w]? = some x) (v : Nat) :
    (ws.set w x')[v]? = if w = v then some x' else ws[v]? := by
  rw [List.getElem?_set]
  have := (List.getElem?_eq_some_iff.1 h).1
  by_cases e : w = v
  · subst e; simp [this]
  · simp [e]

/-- A transition that leaves the pending tasks and the histories alone. -/
theorem vals_quiet {W : World} {s s' : State} {w : Nat} {x x' : Worker} (hv : Vals W s) (h : s.workers[w]? = some x)
    (hw : s'.workers = s.workers.set w x') (hi : s'.items = s.items) (ha : s'.actors = s.actors)
    (hst : ∀ id v, s'.store id = some (.val v) → (seen W s.items).val id = some (readBack W v))
    (hpend : pend x' = pend x) (hcur : ∀ t ph, x'.cur = some (t, ph) → PhaseOk W (seen W s.items).val t ph) : Vals W s' := by
  refine ⟨by rw [hi]; exact hst, ?_, ?_⟩
  · intro v y hy t ph hc
    rw [hi]
    rw [hw, set_getElem h] at hy
    split at hy
    · simp only [Option.some.injEq] at hy
      subst hy
      exact hcur t ph hc
    · exact hv.cur v y hy t ph hc
  · intro a y hy
    rw [ha] at hy
    obtain ⟨p, h1, h2, h3, h4⟩ := hv.hist a y hy
    rw [hi]
    refine ⟨p, h1, h2, ?_, ?_⟩
    · intro z hz t ht hof
      rw [hw, set_getElem h] at hz
      split at hz
      · rename_i e
        simp only [Option.some.injEq] at hz
        subst hz
        rw [hpend] at ht
        exact h3 x (e ▸ h) t ht hof
      · exact h3 z hz t ht hof
    · intro i t hpi ht hof
      obtain ⟨z, hz, hm⟩ := h4 i t hpi ht hof
      rw [hw]
      by_cases e : w = y.worker
      · refine ⟨x', by rw [set_getElem h, if_pos e], ?_⟩
        rw [← e, h] at hz
        simp only [Option.some.injEq] at hz
        subst hz
        rw [hpend]; exact hm
      · exact ⟨z, by rw [set_getElem h, if_neg e]; exact hz, hm⟩

/-- A transition in which the first pending task is over. -/
theorem vals_over {W : World} {n : Nat} {s s' : State} {w : Nat} {x x' : Worker} {t : Task} (hs : Shape n s) (hv : Vals W s)
    (h : s.workers[w]? = some x) (hw : s'.workers = s.workers.set w x') (hi : s'.items = s.items) (hst : s'.store = s.store)
    (hpend : pend x = t :: pend x')
    (hact : ∀ (a : Nat) (y' : Actor), s'.actors[a]? = some y' → ∃ y : Actor, s.actors[a]? = some y ∧ y.worker = y'.worker ∧
      (¬ isOf a t → y'.hist = y.hist) ∧
      (isOf a t → y.hist = (seen W (s.items.take t.idx)).hist a → y'.hist = (seen W (s.items.take (t.idx + 1))).hist a))
    (hcur : ∀ t ph, x'.cur = some (t, ph) → PhaseOk W (seen W s.items).val t ph) : Vals W s' := by
  refine ⟨by rw [hi, hst]; exact hv.store, ?_, ?_⟩
  · intro v y hy t ph hc
    rw [hi]
    rw [hw, set_getElem h] at hy
    split at hy
    · simp only [Option.some.injEq] at hy
      subst hy
      exact hcur t ph hc
    · exact hv.cur v y hy t ph hc
  · intro a y' hy'
    obtain ⟨y, hy, ew, e1, e2⟩ := hact a y' hy'
    rw [hi, hw, ← ew]
    have hsort := (hs.sorted w x h).sublist ((pend_sub x).map _)
    rw [hpend] at hsort
    simp only [List.map_cons, List.pairwise_cons, List.mem_map, forall_exists_index, and_imp,
      forall_apply_eq_imp_iff₂] at hsort
    have hmem : t ∈ tasks x := (pend_sub x).subset (by rw [hpend]; simp)
    have hidx := hs.idx w x h t hmem
    obtain ⟨p, h1, h2, h3, h4⟩ := hv.hist a y hy
    by_cases hof : isOf a t
    · obtain ⟨ewk, eh⟩ := hist_now hs hv h hpend hof hy
      refine ⟨t.idx + 1, (List.getElem?_eq_some_iff.1 hidx).1, e2 hof eh, ?_, ?_⟩
      · intro z hz u hu hofu
        rw [set_getElem h, if_pos ewk.symm] at hz
        simp only [Option.some.injEq] at hz
        subst hz
        exact hsort.1 u hu
      · intro i u hti hu hofu
        have hp := h3 x (by rw [ewk]; exact h) t (by rw [hpend]; simp) hof
        obtain ⟨z, hz, hm⟩ := h4 i u (by omega) hu hofu
        rw [ewk, h] at hz
        simp only [Option.some.injEq] at hz
        subst hz
        refine ⟨x', by rw [set_getElem h, if_pos ewk.symm], ?_⟩
        rw [hpend, List.mem_cons] at hm
        rcases hm with rfl | hm
        · have := hs.place i u hu
          omega
        · exact hm
    · refine ⟨p, h1, (e1 hof).trans h2, ?_, ?_⟩
      · intro z hz u hu hofu
        rw [set_getElem h] at hz
        split at hz
        · rename_i e
          simp only [Option.some.injEq] at hz
          subst hz
          exact h3 x (e ▸ h) u (by rw [hpend]; exact List.mem_cons_of_mem _ hu) hofu
        · exact h3 z hz u hu hofu
      · intro i u hpi hu hofu
        obtain ⟨z, hz, hm⟩ := h4 i u hpi hu hofu
        by_cases e : w = y.worker
        · refine ⟨x', by rw [set_getElem h, if_pos e], ?_⟩
          rw [← e, h] at hz
          simp only [Option.some.injEq] at hz
          subst hz
          rw [hpend, List.mem_cons] at hm
          rcases hm with rfl | hm
          · exact absurd hofu hof
          · exact hm
        · exact ⟨z, by rw [set_getElem h, if_neg e]; exact hz, hm⟩

/-- Equations of the sequential meaning for a task of a worker. -/
theorem equations {W : World} {n : Nat} {s : State} (hs : Shape n s) {t : Task} (h : s.items[t.idx]? = some (.task t)) :
    resolve (seen W s.items).val t.args = resolve (seen W (s.items.take t.idx)).val t.args ∧
    (∀ o ∈ t.outs, (seen W s.items).val o = (seenEval W (seen W (s.items.take t.idx)) (.task t)).val o) ∧ t.outs.Nodup := by
  have hsp := hs.span
  rw [items_split h] at hsp
  have := seen_task (W := W) hsp
  rw [← items_split h] at this
  exact this

theorem stored_results {outs : List Nat} {v : Val} {items : Option (List Val)} {todo : List (Nat × Val)}
    (h : stored outs v items = some todo) : results outs (.ok v items) = todo.map fun p => (p.1, .value p.2) := by
  match outs, items with
  | [], _ => simp [stored] at h; subst h; simp [results]
  | [o], _ => simp [stored] at h; subst h; simp [results]
  | a :: b :: outs, none => simp [stored] at h
  | a :: b :: outs, some l =>
    simp only [stored, Option.map_some, Option.some.injEq] at h
    subst h
    simp only [results]
    rw [List.zip_map_right]
    rfl

theorem results_outcome {outs : List Nat} {r : Ret} {E : Nat → Option Outcome} {o : Nat} {c : Outcome}
    (hn : outs.Nodup) (h : (o, c) ∈ results outs r) : add E (results outs r) o = some c :=
  add_mem (p := (o, c)) (hn.sublist results_keys.sublist) h

theorem stored_seen (W : World) {outs : List Nat} {v : Val} {items : Option (List Val)} {todo : List (Nat × Val)}
    (h : stored outs v items = some todo) : seenResults W outs (.ok v items) = todo.map fun p => (p.1, readBack W p.2) := by
  match outs, items with
  | [], _ => simp [stored] at h; subst h; simp [seenResults]
  | [o], _ => simp [stored] at h; subst h; simp [seenResults]
  | a :: b :: outs, none => simp [stored] at h
  | a :: b :: outs, some l =>
    simp only [stored, Option.map_some, Option.some.injEq] at h
    subst h
    simp only [seenResults]
    rw [List.zip_map_right]
    rfl

theorem seenResults_mem {W : World} {outs : List Nat} {r : Ret} {E : Nat → Option Outcome} {o : Nat} {c : Outcome}
    (hn : outs.Nodup) (h : (o, c) ∈ seenResults W outs r) : add E (seenResults W outs r) o = some c :=
  add_mem (p := (o, c)) (hn.sublist seenResults_keys.sublist) h

theorem call_eq {W : World} {n : Nat} {s : State} (hs : Shape n s) (hv : Vals W s) {w : Nat} {x : Worker}
    (h : s.workers[w]? = some x) {t : Task} {rest : List Task} (hp : pend x = t :: rest) (args : List Val) :
    callTarget W (histOf s.actors t.target) args t.target = apply W (seen W (s.items.take t.idx)).hist args t.target := by
  cases ht : t.target with
  | fn f => rfl
  | method a c m =>
    obtain ⟨y, hy, -⟩ := hs.home w x h t ((pend_sub x).subset (by rw [hp]; simp)) a c m ht
    obtain ⟨-, e⟩ := hist_now hs hv h hp ⟨c, m, ht⟩ hy
    simp [callTarget, apply, histOf, hy, e]

theorem plain_apply {W : World} (hW : PlainWorld W) (hist : Nat → List (Nat × List Val)) (args : List Val) (t : Target) :
    PlainRet (apply W hist args t) := by
  cases t with
  | fn f => exact hW.call f args
  | method a c m => exact hW.method c _ m args

theorem mem_stored_plain {outs : List Nat} {v : Val} {items : Option (List Val)} {todo : List (Nat × Val)}
    (h : stored outs v items = some todo) (hp : PlainRet (.ok v items)) : ∀ p ∈ todo, plain p.2 = true := by
  obtain ⟨p1, p2⟩ := hp v items rfl
  intro p hm
  match outs, items with
  | [], _ => simp [stored] at h; subst h; simp at hm
  | [o], _ => simp [stored] at h; subst h; simp at hm; simp [hm, p1]
  | a :: b :: outs, none => simp [stored] at h
  | a :: b :: outs, some l =>
    simp only [stored, Option.map_some, Option.some.injEq] at h
    subst h
    exact p2 l rfl p.2 (List.of_mem_zip hm).2

theorem record_cases {actors : List Actor} {args : List Val} {t : Task} {a : Nat} {y' : Actor}
    (h : (record actors args t.target)[a]? = some y') : ∃ y : Actor, actors[a]? = some y ∧ y.worker = y'.worker ∧
      (¬ isOf a t → y'.hist = y.hist) ∧ (∀ c m, t.target = .method a c m → y'.hist = y.hist ++ [(m, args)]) := by
  rw [record_getElem] at h
  obtain ⟨y, hy, rfl⟩ := Option.map_eq_some_iff.1 h
  refine ⟨y, hy, ?_⟩
  cases ht : t.target with
  | fn f => simp
  | method b c m =>
    by_cases e : b = a
    · subst e
      refine ⟨by simp, fun hno => absurd ⟨c, m, ht⟩ hno, ?_⟩
      intro c' m' e
      simp only [Target.method.injEq] at e
      simp [e.2.2]
    · simp only [e, if_false, true_and, implies_true]
      intro c' m' e'
      simp only [Target.method.injEq] at e'
      exact absurd e'.1 e

theorem vals_inner {W : World} {n : Nat} {s s' : State} {w : Nat} (hs : Shape n s) (hv : Vals W s)
    (h : Inner W s w s') : Vals W s' := by
  cases h with
  | take h =>
    refine vals_quiet hv h rfl rfl rfl hv.store rfl ?_
    intro t ph e
    simp only [Option.some.injEq, Prod.mk.injEq] at e
    obtain ⟨rfl, rfl⟩ := e
    exact ⟨[], rfl, rfl⟩
  | start h =>
    refine vals_quiet hv h rfl rfl rfl hv.store rfl ?_
    intro t ph e
    simp only [Option.some.injEq, Prod.mk.injEq] at e
    obtain ⟨rfl, rfl⟩ := e
    obtain ⟨pre, h1, h2⟩ := hv.cur w _ h _ _ rfl
    rw [List.append_nil] at h1
    simp only [PhaseOk]
    rw [h1]; exact h2
  | lit h =>
    rename_i v0 _
    refine vals_quiet hv h rfl rfl rfl hv.store rfl ?_
    intro t ph e
    simp only [Option.some.injEq, Prod.mk.injEq] at e
    obtain ⟨rfl, rfl⟩ := e
    obtain ⟨pre, h1, h2⟩ := hv.cur w _ h _ _ rfl
    refine ⟨pre ++ [.lit v0], by rw [h1]; simp, ?_⟩
    rw [resolve_append h2]
    simp [resolve]
  | value h hst hg =>
    rename_i id rest v u
    have hval : (seen W s.items).val id = some (.value u) := by
      rw [hv.store id v hst]; rw [readBack_eq, hg]
    refine vals_quiet hv h rfl rfl rfl hv.store rfl ?_
    intro t ph e
    simp only [Option.some.injEq, Prod.mk.injEq] at e
    obtain ⟨rfl, rfl⟩ := e
    obtain ⟨pre, h1, h2⟩ := hv.cur w _ h _ _ rfl
    refine ⟨pre ++ [.ref id], by rw [h1]; simp, ?_⟩
    rw [resolve_append h2]
    simp [resolve, hval]
  | error h hst hg =>
    rename_i queue t done id rest v e
    have hidx := hs.idx w _ h t (by simp [tasks, held])
    obtain ⟨q1, q2, q3⟩ := equations (W := W) hs hidx
    have hval : (seen W s.items).val id = some (.raised e) := by
      rw [hv.store id v hst]; rw [readBack_eq, hg]
    have hres : resolve (seen W s.items).val t.args = some (.error e) := by
      obtain ⟨pre, h1, h2⟩ := hv.cur w _ h _ _ rfl
      rw [h1, resolve_append h2]
      simp [resolve, hval]
    rw [q1] at hres
    have hev : seenEval W (seen W (s.items.take t.idx)) (.task t) =
        { seen W (s.items.take t.idx) with
          val := add (seen W (s.items.take t.idx)).val (t.outs.map fun o => (o, .raised e)) } := by
      simp [seenEval, hres]
    refine vals_over (t := t) hs hv h rfl rfl rfl rfl ?_ ?_
    · intro a y hy
      refine ⟨y, hy, rfl, fun _ => rfl, ?_⟩
      intro hof eh
      rw [take_succ_of hidx, seen_snoc, hev]
      exact eh
    · intro u ph e'
      simp only [Option.some.injEq, Prod.mk.injEq] at e'
      obtain ⟨rfl, rfl⟩ := e'
      intro p hp
      simp only [failed, List.mem_map] at hp
      obtain ⟨o, ho, rfl⟩ := hp
      refine ⟨ho, ?_⟩
      simp only
      rw [q2 o ho, hev]
      exact seenResults_mem (W := W) (r := .raise e) q3 (List.mem_map.2 ⟨o, ho, rfl⟩)
  | raised h hc =>
    rename_i queue t args e
    have hidx := hs.idx w _ h t (by simp [tasks, held])
    obtain ⟨q1, q2, q3⟩ := equations (W := W) hs hidx
    have hres := hv.cur w _ h _ _ rfl
    simp only [PhaseOk] at hres
    rw [q1] at hres
    rw [call_eq hs hv h rfl] at hc
    have hev : seenEval W (seen W (s.items.take t.idx)) (.task t) =
        ⟨add (seen W (s.items.take t.idx)).val (seenResults W t.outs (.raise e)),
          remember (seen W (s.items.take t.idx)).hist args t.target⟩ := by
      simp [seenEval, hres, hc]
    refine vals_over (t := t) hs hv h rfl rfl rfl rfl ?_ ?_
    · intro a y hy
      obtain ⟨y0, hy0, k1, k2, k3⟩ := record_cases hy
      refine ⟨y0, hy0, k1, k2, ?_⟩
      rintro ⟨c, m, ht⟩ eh
      rw [take_succ_of hidx, seen_snoc, hev, k3 c m ht, eh]
      simp [remember, ht]
    · intro u ph e'
      simp only [Option.some.injEq, Prod.mk.injEq] at e'
      obtain ⟨rfl, rfl⟩ := e'
      intro p hp
      simp only [failed, List.mem_map] at hp
      obtain ⟨o, ho, rfl⟩ := hp
      refine ⟨ho, ?_⟩
      simp only
      rw [q2 o ho, hev]
      exact seenResults_mem (W := W) (r := .raise e) q3 (List.mem_map.2 ⟨o, ho, rfl⟩)
  | returned h hc hd =>
    rename_i queue t args v items todo
    have hidx := hs.idx w _ h t (by simp [tasks, held])
    obtain ⟨q1, q2, q3⟩ := equations (W := W) hs hidx
    have hres := hv.cur w _ h _ _ rfl
    simp only [PhaseOk] at hres
    rw [q1] at hres
    rw [call_eq hs hv h rfl] at hc
    have hev : seenEval W (seen W (s.items.take t.idx)) (.task t) =
        ⟨add (seen W (s.items.take t.idx)).val (seenResults W t.outs (.ok v items)),
          remember (seen W (s.items.take t.idx)).hist args t.target⟩ := by
      simp [seenEval, hres, hc]
    refine vals_over (t := t) hs hv h rfl rfl rfl rfl ?_ ?_
    · intro a y hy
      obtain ⟨y0, hy0, k1, k2, k3⟩ := record_cases hy
      refine ⟨y0, hy0, k1, k2, ?_⟩
      rintro ⟨c, m, ht⟩ eh
      rw [take_succ_of hidx, seen_snoc, hev, k3 c m ht, eh]
      simp [remember, ht]
    · intro u ph e'
      simp only [Option.some.injEq, Prod.mk.injEq] at e'
      obtain ⟨rfl, rfl⟩ := e'
      intro p hp
      have ho := stored_keys hd p hp
      refine ⟨ho, ?_⟩
      rw [q2 _ ho, hev]
      refine seenResults_mem q3 ?_
      rw [stored_seen W hd]
      exact List.mem_map.2 ⟨p, hp, rfl⟩
  | dies h hc hd =>
    rename_i queue t args v items
    have hidx := hs.idx w _ h t (by simp [tasks, held])
    obtain ⟨q1, q2, q3⟩ := equations (W := W) hs hidx
    have hres := hv.cur w _ h _ _ rfl
    simp only [PhaseOk] at hres
    rw [q1] at hres
    rw [call_eq hs hv h rfl] at hc
    have hev : (seenEval W (seen W (s.items.take t.idx)) (.task t)).hist =
          remember (seen W (s.items.take t.idx)).hist args t.target := by
      simp [seenEval, hres]
    refine vals_over (t := t) hs hv h rfl rfl rfl rfl ?_ (by simp)
    intro a y hy
    obtain ⟨y0, hy0, k1, k2, k3⟩ := record_cases hy
    refine ⟨y0, hy0, k1, k2, ?_⟩
    rintro ⟨c, m, ht⟩ eh
    rw [take_succ_of hidx, seen_snoc, hev, k3 c m ht, eh]
    simp [remember, ht]
  | write h =>
    rename_i queue t o v todo
    have hcur := hv.cur w _ h _ _ rfl
    refine vals_quiet hv h rfl rfl rfl ?_ rfl ?_
    · intro id u hu
      simp only [upd] at hu
      split at hu
      · rename_i e
        subst e
        simp only [Option.some.injEq, Cell.val.injEq] at hu
        subst hu
        exact (hcur (id, v) (by simp)).2
      · exact hv.store id u hu
    · intro u ph e'
      simp only [Option.some.injEq, Prod.mk.injEq] at e'
      obtain ⟨rfl, rfl⟩ := e'
      exact fun p hp => hcur p (List.mem_cons_of_mem _ hp)
  | idle h => exact vals_quiet hv h rfl rfl rfl hv.store rfl (by simp)

theorem seenResults_plain {W : World} {outs : List Nat} {r : Ret} (h : PlainRet r) : seenResults W outs r = results outs r := by
  cases r with
  | raise e => rfl
  | ok v items =>
    obtain ⟨h1, h2⟩ := h v items rfl
    match outs, items with
    | [], _ => simp [seenResults, results]
    | [o], _ => simp [seenResults, results, readBack_plain h1]
    | a :: b :: outs, none => rfl
    | a :: b :: outs, some l =>
      simp only [seenResults, results]
      rw [List.map_congr_left fun u hu => readBack_plain (h2 l rfl u hu)]

/-- Without values that the store treats specially the two meanings are the same. -/
theorem seen_plain {W : World} (hW : PlainWorld W) {items : List Item} (hp : PlainPuts items) : seen W items = meaning W items := by
  have key : ∀ (l : List Item) (E : Env), PlainPuts l → l.foldl (seenEval W) E = l.foldl (eval W) E := by
    intro l
    induction l with
    | nil => intro E _; rfl
    | cons x l ih =>
      intro E h
      have hx : seenEval W E x = eval W E x := by
        cases x with
        | put id v => simp only [seenEval, eval, putBack_plain hW (h id v List.mem_cons_self)]
        | task t =>
          simp only [seenEval, eval]
          split
          · rfl
          · rfl
          · rw [seenResults_plain (plain_apply hW _ _ _)]
      rw [List.foldl_cons, List.foldl_cons, hx]
      exact ih _ fun id v hm => h id v (List.mem_cons_of_mem _ hm)
  exact key items Env.empty hp

end Verif.Pymp
