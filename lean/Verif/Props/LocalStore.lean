import Verif.Lemmas.LocalStore

/-! Properties of the lifetime of data in a process (C48, C78, C82). -/
namespace Verif.LocalStore

theorem strong_step {s : Store} {op : Op} {id : Id} (h : id ∈ s.strong) (hc : ∀ ids, op = .cleanup ids → id ∉ ids) :
    id ∈ (s.step op).strong := by
  rw [Store.step, (sweep_fields _).2.2.1]
  cases op with
  | cleanup ids =>
    have := hc ids rfl
    simp [Store.act, h, this]
  | get i =>
    simp only [Store.act]
    split
    · exact keep_strong_mono _ _ _ h
    · exact h
  | recvData i v => exact keep_strong_mono _ _ _ h
  | recvOwner i v => exact keep_strong_mono _ _ _ h
  | _ => exact h

theorem data_step {s : Store} {op : Op} {id : Id} {v : Val} (h : id ∈ s.strong ∨ (id ∈ s.held ∧ id ∈ (s.step op).held))
    (hd : lookup s.data id = some v) (hc : ∀ ids, op = .cleanup ids → id ∉ ids ∨ id ∈ (s.step op).held)
    (hr : ∀ w, op = .recvData id w → w = v) : lookup (s.step op).data id = some v := by
  have hal : id ∈ (s.act op).held ∨ id ∈ (s.act op).strong := by
    rcases h with h | ⟨-, h⟩
    · by_cases hcl : ∃ ids, op = .cleanup ids
      · obtain ⟨ids, rfl⟩ := hcl
        rcases hc ids rfl with hx | hx
        · right; simp [Store.act, h, hx]
        · left; rwa [Store.step, (sweep_fields _).2.1] at hx
      · have := strong_step (op := op) h fun ids e => absurd ⟨ids, e⟩ hcl
        rw [Store.step, (sweep_fields _).2.2.1] at this
        exact Or.inr this
    · rw [Store.step, (sweep_fields _).2.1] at h
      exact Or.inl h
  rw [Store.step, (sweep_lookup _ _ hal).1]
  cases op with
  | recvData i w =>
    simp only [Store.act, keep_fields, lookup_assign]
    split
    · rename_i he; subst he; rw [hr w rfl]
    · exact hd
  | recvOwner i r => simp only [Store.act, keep_fields]; exact hd
  | get i =>
    simp only [Store.act]
    split
    · rename_i w hw
      simp only [keep_fields, lookup_assign]
      split
      · rename_i he
        subst he
        simp only [Store.find, hd, Got.value.injEq] at hw
        rw [hw]
      · exact hd
    · exact hd
  | put w => exact hd
  | submit w => exact hd
  | hold w => exact hd
  | drop w => exact hd
  | cleanup w => exact hd

theorem owners_step {s : Store} {op : Op} {id : Id} {r : Nat} (hal : id ∈ (s.act op).held ∨ id ∈ (s.act op).strong)
    (hd : lookup s.owners id = some r) (hr : ∀ w, op = .recvOwner id w → w = r) (hne : id ≠ (s.me, s.counter)) :
    lookup (s.step op).owners id = some r := by
  rw [Store.step, (sweep_lookup _ _ hal).2.2]
  cases op with
  | recvOwner i w =>
    simp only [Store.act, keep_fields, lookup_assign]
    split
    · rename_i he; subst he; rw [hr w rfl]
    · exact hd
  | recvData i r => simp only [Store.act, keep_fields]; exact hd
  | get i =>
    simp only [Store.act]
    split
    · simp only [keep_fields]; exact hd
    · exact hd
  | submit w =>
    simp only [Store.act, lookup_assign]
    rw [if_neg fun e => hne e.symm]
    exact hd
  | put w => exact hd
  | hold w => exact hd
  | drop w => exact hd
  | cleanup w => exact hd

theorem own_not_strong (ops : List Op) (s : Store) (h : ∀ id ∈ s.strong, id.1 ≠ s.me) :
    ∀ id ∈ (s.run ops).strong, id.1 ≠ s.me := by
  induction ops generalizing s with
  | nil => exact h
  | cons op l ih =>
    have hk : ∀ (t : Store) (i : Id), t.me = s.me → (∀ id ∈ t.strong, id.1 ≠ s.me) → ∀ id ∈ (t.keep i).strong, id.1 ≠ s.me := by
      intro t i hm ht id hid
      unfold Store.keep at hid
      split at hid
      · rename_i hg
        simp only [List.mem_cons] at hid
        rcases hid with rfl | hid
        · rw [← hm]; exact hg.1
        · exact ht id hid
      · exact ht id hid
    have := ih (s.step op) (by
      rw [step_me, Store.step, (sweep_fields _).2.2.1]
      cases op with
      | cleanup ids =>
        intro id hid
        exact h id (List.mem_filter.1 hid).1
      | get i =>
        simp only [Store.act]
        split
        · exact hk _ _ rfl h
        · exact h
      | recvData i v => exact hk _ _ rfl h
      | recvOwner i v => exact hk _ _ rfl h
      | _ => exact h)
    rw [step_me] at this
    exact this

end Verif.LocalStore

namespace Verif.Props
open Verif.LocalStore

/-! ### C48 -/

/-- **C48** for data: data received for a reference of another process is found, with the received value, until a cleanup
list with the reference arrives, whatever copies are dropped. (`after` are the steps after the last receipt.) -/
theorem C48_data (me : Nat) (before after : List Op) (id : Id) (v : Val) (hid : id.1 ≠ me)
    (hc : ∀ ids, Op.cleanup ids ∈ after → id ∉ ids) (hr : ∀ w, Op.recvData id w ∉ after) :
    ((Store.init me).run (before ++ [.recvData id v] ++ after)).find id = .value v := by
  have key : ∀ (l : List Op) (s : Store), id ∈ s.strong → lookup s.data id = some v →
      (∀ ids, Op.cleanup ids ∈ l → id ∉ ids) → (∀ w, Op.recvData id w ∉ l) →
      lookup (s.run l).data id = some v := by
    intro l
    induction l with
    | nil => intro s _ h _ _; exact h
    | cons op l ih =>
      intro s hs hd hc hr
      refine ih (s.step op) ?_ ?_ (fun ids h => hc ids (List.mem_cons_of_mem _ h)) (fun w h => hr w (List.mem_cons_of_mem _ h))
      · exact strong_step hs fun ids e => hc ids (e ▸ List.mem_cons_self)
      · exact data_step (Or.inl hs) hd (fun ids e => Or.inl (hc ids (e ▸ List.mem_cons_self)))
          (fun w e => absurd (e ▸ List.mem_cons_self) (hr w))
  have hrun : (Store.init me).run (before ++ [.recvData id v] ++ after) =
      (((Store.init me).run before).step (.recvData id v)).run after := by
    simp [Store.run, List.foldl_append]
  rw [hrun]
  have hme : ((Store.init me).run before).me = me := run_me _ _
  have hst : id ∈ (((Store.init me).run before).act (.recvData id v)).strong := keep_strong _ _ (by
    show id.1 ≠ ((Store.init me).run before).me
    rw [hme]; exact hid)
  have := key after (((Store.init me).run before).step (.recvData id v)) (by rw [Store.step, (sweep_fields _).2.2.1]; exact hst)
    (by rw [Store.step, (sweep_lookup _ _ (Or.inr hst)).1]; simp [Store.act, keep_fields, lookup_assign]) hc hr
  simp [Store.find, this]

/-- **C48** for locations: the owner received for a reference of another process stays known until a cleanup list with the
reference arrives. -/
theorem C48_owner (me : Nat) (before after : List Op) (id : Id) (r : Nat) (hid : id.1 ≠ me)
    (hc : ∀ ids, Op.cleanup ids ∈ after → id ∉ ids) (hr : ∀ w, Op.recvOwner id w ∉ after) :
    lookup ((Store.init me).run (before ++ [.recvOwner id r] ++ after)).owners id = some r := by
  have key : ∀ (l : List Op) (s : Store), s.me = me → id ∈ s.strong → lookup s.owners id = some r →
      (∀ ids, Op.cleanup ids ∈ l → id ∉ ids) → (∀ w, Op.recvOwner id w ∉ l) →
      lookup (s.run l).owners id = some r := by
    intro l
    induction l with
    | nil => intro s _ _ h _ _; exact h
    | cons op l ih =>
      intro s hm hs hd hc hr
      have hst : id ∈ (s.step op).strong := strong_step hs fun ids e => hc ids (e ▸ List.mem_cons_self)
      refine ih (s.step op) ((step_me _ _).trans hm) hst ?_ (fun ids h => hc ids (List.mem_cons_of_mem _ h))
        (fun w h => hr w (List.mem_cons_of_mem _ h))
      refine owners_step (Or.inr ?_) hd (fun w e => absurd (e ▸ List.mem_cons_self) (hr w)) ?_
      · rwa [Store.step, (sweep_fields _).2.2.1] at hst
      · rintro rfl; exact hid hm
  have hrun : (Store.init me).run (before ++ [.recvOwner id r] ++ after) =
      (((Store.init me).run before).step (.recvOwner id r)).run after := by
    simp [Store.run, List.foldl_append]
  rw [hrun]
  have hme : ((Store.init me).run before).me = me := run_me _ _
  have hst : id ∈ (((Store.init me).run before).act (.recvOwner id r)).strong := keep_strong _ _ (by
    show id.1 ≠ ((Store.init me).run before).me
    rw [hme]; exact hid)
  exact key after (((Store.init me).run before).step (.recvOwner id r)) ((step_me _ _).trans hme) (by rw [Store.step, (sweep_fields _).2.2.1]; exact hst)
    (by rw [Store.step, (sweep_lookup _ _ (Or.inr hst)).2.2]; simp [Store.act, keep_fields, lookup_assign]) hc hr

-- data of process 3 received by process 2, a copy taken and dropped, another reference cleaned up
example : ((Store.init 2).run [.recvData (3, 0) ⟨7, []⟩, .hold (3, 0), .drop (3, 0), .cleanup [(3, 1), (0, 0)]]).find (3, 0) =
    .value ⟨7, []⟩ := by decide

-- after the cleanup it is gone
example : ((Store.init 2).run [.recvData (3, 0) ⟨7, []⟩, .hold (3, 0), .drop (3, 0), .cleanup [(3, 0)]]).find (3, 0) =
    .keyError := by decide

/-! ### C78 -/

/-- **C78** as stated, in one process: a reference the program holds, however it obtained it, can be used to get its data. -/
def C78_full : Prop := ∀ (me : Nat) (ops : List Op) (id : Id), (∀ i, Op.hold i ∉ ops) → (∀ i v, Op.recvData i v ∉ ops) →
  id ∈ ((Store.init me).run ops).held → ((Store.init me).run ops).find id ≠ .keyError

/-- The code violates C78: a reference put inside another object does not keep its data; after the original is dropped the
embedded copy cannot be used. -/
theorem C78_dropped_violated : ¬ C78_full := by
  intro h
  refine h 0 [.put ⟨5, []⟩, .put ⟨6, [(0, 0)]⟩, .drop (0, 0), .get (0, 1)] (0, 0) (by simp) (by simp) (by decide) (by decide)

/-- The code violates C78 even if nothing is dropped: a reference contained in data received from another process cannot be
used, because nobody told this process where its data is. -/
theorem C78_received_violated : ∃ (me : Nat) (ops : List Op) (id : Id), (∀ i, Op.drop i ∉ ops) ∧ (∀ l, Op.cleanup l ∉ ops) ∧
    id ∈ ((Store.init me).run ops).held ∧ ((Store.init me).run ops).find id = .keyError :=
  ⟨2, [.hold (0, 1), .recvData (0, 1) ⟨6, [(0, 0)]⟩, .get (0, 1)], (0, 0), by simp, by simp, by decide, by decide⟩

/-- The part of C78 that holds: as long as the program holds a copy of a reference it created by `put`, at every moment, the
data is found, wherever else copies are embedded. (Data sent back by
other processes is the data that was put, and nobody sends data for a reference before it is created.) Missing:
references whose copies were all dropped and that are then taken out of an object, and references received inside data of
other processes, for which it is false. -/
theorem C78_held_partial (me : Nat) (before after : List Op) (v : Val)
    (hh : ∀ k, (me, ((Store.init me).run before).counter) ∈ ((Store.init me).run (before ++ [.put v] ++ after.take k)).held)
    (hr : ∀ w, Op.recvData (me, ((Store.init me).run before).counter) w ∈ after → w = v)
    (hnew : lookup ((Store.init me).run before).data (me, ((Store.init me).run before).counter) = none) :
    ((Store.init me).run (before ++ [.put v] ++ after)).find (me, ((Store.init me).run before).counter) = .value v := by
  generalize hs0 : (Store.init me).run before = s0 at *
  have hme : s0.me = me := by rw [← hs0]; exact run_me _ _
  have hrun : ∀ l, (Store.init me).run (before ++ [.put v] ++ l) = (s0.step (.put v)).run l := by
    intro l; rw [← hs0]; simp [Store.run, List.foldl_append]
  simp only [hrun] at hh ⊢
  have key : ∀ (l : List Op) (s : Store), (∀ k, (me, s0.counter) ∈ (s.run (l.take k)).held) →
      (∀ w, Op.recvData (me, s0.counter) w ∈ l → w = v) →
      (lookup s.data (me, s0.counter) = some v ∨ (lookup s.data (me, s0.counter) = none ∧ lookup s.cache (me, s0.counter) = some v)) →
      s.me = me → s0.counter < s.counter →
      (s.run l).find (me, s0.counter) = .value v := by
    intro l
    induction l with
    | nil =>
      intro s _ _ h _ _
      rcases h with h | ⟨h1, h2⟩
      · simp [Store.run, Store.find, h]
      · simp [Store.run, Store.find, h1, h2]
    | cons op l ih =>
      intro s hk hr h hm hlt
      have hnow : (me, s0.counter) ∈ s.held := by simpa [Store.run] using hk 0
      have hnext : (me, s0.counter) ∈ (s.step op).held := by simpa [Store.run] using hk 1
      have hact : (me, s0.counter) ∈ (s.act op).held := by rwa [Store.step, (sweep_fields _).2.1] at hnext
      have hcount : s0.counter < (s.step op).counter := by
        rw [Store.step, (sweep_fields _).2.2.2]
        cases op <;> simp only [Store.act] <;> try (first | omega | simp only [keep_fields]; omega)
        split <;> (try simp only [keep_fields]) <;> omega
      refine ih (s.step op) (fun k => by simpa [Store.run] using hk (k + 1)) (fun w hw => hr w (List.mem_cons_of_mem _ hw)) ?_
        ((step_me _ _).trans hm) hcount
      rcases h with h | ⟨h1, h2⟩
      · exact Or.inl (data_step (Or.inr ⟨hnow, hnext⟩) h (fun _ _ => Or.inr hnext)
          (fun w e => hr w (e ▸ List.mem_cons_self)))
      · rw [Store.step, (sweep_lookup _ _ (Or.inl hact)).1, (sweep_lookup _ _ (Or.inl hact)).2.1]
        cases op with
        | recvData i w =>
          simp only [Store.act, keep_fields, lookup_assign]
          by_cases he : i = (me, s0.counter)
          · subst he; left; rw [if_pos rfl, hr w List.mem_cons_self]
          · right; rw [if_neg he]; exact ⟨h1, h2⟩
        | recvOwner i r => simp only [Store.act, keep_fields]; exact Or.inr ⟨h1, h2⟩
        | get i =>
          simp only [Store.act]
          split
          · rename_i w hw
            simp only [keep_fields, lookup_assign]
            by_cases he : i = (me, s0.counter)
            · subst he
              simp only [Store.find, h1, h2, Got.value.injEq] at hw
              left; rw [if_pos rfl, hw]
            · right; rw [if_neg he]; exact ⟨h1, h2⟩
          · exact Or.inr ⟨h1, h2⟩
        | put w =>
          right
          simp only [Store.act, lookup_assign]
          refine ⟨h1, ?_⟩
          rw [if_neg (by simp only [Prod.mk.injEq, not_and]; intro _; omega)]
          exact h2
        | submit w => exact Or.inr ⟨h1, h2⟩
        | hold w => exact Or.inr ⟨h1, h2⟩
        | drop w => exact Or.inr ⟨h1, h2⟩
        | cleanup w => exact Or.inr ⟨h1, h2⟩
  have hal : (me, s0.counter) ∈ (s0.act (.put v)).held := by simp [Store.act, hme]
  refine key after _ hh hr ?_ ((step_me _ _).trans hme) ?_
  · rw [Store.step, (sweep_lookup _ _ (Or.inl hal)).1, (sweep_lookup _ _ (Or.inl hal)).2.1]
    right
    exact ⟨hnew, by simp [Store.act, hme, lookup_assign]⟩
  · rw [Store.step, (sweep_fields _).2.2.2]; simp [Store.act]

-- the reference is embedded, one copy is dropped, another is still held
example : ((Store.init 0).run [.put ⟨5, []⟩, .put ⟨6, [(0, 0)]⟩, .hold (0, 0), .drop (0, 0), .get (0, 1)]).find (0, 0) =
    .value ⟨5, []⟩ := by decide

/-! ### C82 -/

/-- **C82**: no data is kept for nobody. After every step a process has data, serialized data or an owner only for references
that the program holds, that belong to another process and were received and not yet cleaned up, or that are contained in a
kept value. -/
theorem C82_no_garbage (me : Nat) (ops : List Op) (op : Op) (id : Id)
    (h1 : id ∉ ((Store.init me).run (ops ++ [op])).held) (h2 : id ∉ ((Store.init me).run (ops ++ [op])).strong)
    (h3 : ∀ e ∈ ((Store.init me).run (ops ++ [op])).data, id ∉ e.2.refs) :
    lookup ((Store.init me).run (ops ++ [op])).data id = none ∧ lookup ((Store.init me).run (ops ++ [op])).cache id = none ∧
      lookup ((Store.init me).run (ops ++ [op])).owners id = none := by
  have hrun : (Store.init me).run (ops ++ [op]) = (((Store.init me).run ops).act op).sweep := by
    simp [Store.run, List.foldl_append, Store.step]
  have hcl := sweep_closed (((Store.init me).run ops).act op)
  rw [← hrun] at hcl
  generalize (Store.init me).run (ops ++ [op]) = s at *
  have hdead : s.alive id = false := by
    simp only [Store.alive, h1, h2, decide_false, Bool.or_self, Bool.false_or, List.any_eq_false]
    intro e he
    simpa using h3 e he
  have hnone : ∀ {α : Type} (l : List (Id × α)), lookup (l.filter fun e => s.alive e.1) id = none := by
    intro α l
    simp only [lookup, Option.map_eq_none_iff, List.find?_eq_none, List.mem_filter]
    rintro e ⟨-, he⟩ hx
    simp only [decide_eq_true_eq] at hx
    rw [hx, hdead] at he
    simp at he
  have e1 : s.data = s.data.filter fun e => s.alive e.1 := (congrArg Store.data hcl).symm
  have e2 : s.cache = s.cache.filter fun e => s.alive e.1 := (congrArg Store.cache hcl).symm
  have e3 : s.owners = s.owners.filter fun e => s.alive e.1 := (congrArg Store.owners hcl).symm
  refine ⟨?_, ?_, ?_⟩
  · rw [e1]; exact hnone _
  · rw [e2]; exact hnone _
  · rw [e3]; exact hnone _

/-- A process never keeps its own references by itself: for them only the program and kept values count. -/
theorem C82_own (me : Nat) (ops : List Op) (id : Id) (h : id.1 = me) : id ∉ ((Store.init me).run ops).strong :=
  fun hs => own_not_strong ops (Store.init me) (by simp [Store.init]) id hs h

-- dropping the box releases what only the box kept
example : (((Store.init 0).run [.put ⟨5, []⟩, .put ⟨6, [(0, 0)]⟩, .get (0, 1), .drop (0, 0), .drop (0, 0), .drop (0, 1)]).data,
    ((Store.init 0).run [.put ⟨5, []⟩, .put ⟨6, [(0, 0)]⟩, .get (0, 1), .drop (0, 0), .drop (0, 0), .drop (0, 1)]).cache) =
    ([], []) := by decide

end Verif.Props
