import Verif.Lemmas.Threads
import Mathlib.Data.List.Perm.Subperm

/-! C140: calls from several threads. -/
namespace Verif.Props

open Verif.Threads

/-- C140: the references of all calls are different, the monitor goes on, and every call receives the reply to its own request. -/
def C140_full : Prop :=
  (∀ (acts : List IdAct) (s : Ids), Ids.init.run acts = some s → (s.taken.map (·.2)).Nodup) ∧
  ∀ (acts : List Act) (s : State), State.init.run acts = some s → s.ended = false ∧ ∀ x ∈ s.log, x.2 = x.1

/-- The calls that the monitor answers if it gets these operations and these data in these orders. -/
def threadAnswers : List (Nat × Kind) → List (Nat × Kind) → List Nat
  | [], _ => []
  | (c, k) :: O, D =>
    if k = .count then c :: threadAnswers O D
    else match D with
    | [] => []
    | (d, k') :: D' => if k = k' then d :: threadAnswers O D' else []

/-- Some operation gets data of another kind of request. -/
def ThreadMismatch (O D : List (Nat × Kind)) : Prop :=
  ∃ (j : Nat) (k k' : Kind), ((O.filter (·.2.data)).map (·.2))[j]? = some k ∧ (D.map (·.2))[j]? = some k' ∧ k ≠ k'

/-- A call begins only when all calls before have received their replies. -/
def ThreadSerial (acts : List Act) : Prop :=
  ∀ pre c k post, acts = pre ++ .op c k :: post → ∀ c' k', .op c' k' ∈ pre → .reply c' ∈ pre

private theorem answers_handled {O D A} (h : Handled O D A) : ∀ O' D', threadAnswers (O ++ O') (D ++ D') = A ++ threadAnswers O' D' := by
  induction h with
  | nil => intro O' D'; rfl
  | count c _ ih => intro O' D'; rw [List.append_assoc, List.append_assoc, ih]; simp [threadAnswers]
  | data c d k hk _ ih =>
    intro O' D'
    rw [List.append_assoc, List.append_assoc, List.append_assoc, ih]
    have : k ≠ .count := by rintro rfl; simp [Kind.data] at hk
    simp [threadAnswers, this]

private theorem answers_state {acts : List Act} {s : State} (h : Inv acts s) :
    ∃ rest, threadAnswers (sentOps acts) (sentData acts) = s.log.map (·.2) ++ s.replies ++ rest ∧
      ((s.ended = true ∨ (s.ops = [] ∧ s.reading = none) ∨ (s.reading.isSome ∧ s.data = [])) → rest = []) := by
  obtain ⟨O, D, hh, hO, hD, hE⟩ := h.done
  have hnc : ∀ c k, s.reading = some (c, k) → k ≠ .count := fun c k e hk => by
    have := h.reading c k e; rw [hk] at this; cases this
  cases he : s.ended with
  | true =>
    obtain ⟨c, k, d, k', e1, e2, e3⟩ := hE he
    refine ⟨[], ?_, fun _ => rfl⟩
    rw [hO, e3, e1, List.append_assoc, answers_handled hh]
    simp [threadAnswers, hnc c k e1, e2]
  | false =>
    refine ⟨threadAnswers (s.reading.toList ++ s.ops) s.data, ?_, ?_⟩
    · rw [hO, hD he, List.append_assoc, answers_handled hh]
    · rintro (hc | ⟨h1, h2⟩ | ⟨h1, h2⟩)
      · cases hc
      · simp [h1, h2, threadAnswers]
      · obtain ⟨x, hx⟩ := Option.isSome_iff_exists.1 h1
        obtain ⟨c, k⟩ := x
        simp [hx, h2, threadAnswers, hnc c k hx]

/-- Exactly: which call is answered by the reply that a call receives depends on the orders of operations, data and receptions only. -/
theorem C140_replies_exactly_partial (acts : List Act) (s : State) (h : State.init.run acts = some s) :
    s.log = (received acts).zip (threadAnswers (sentOps acts) (sentData acts)) := by
  have hi := inv_run acts h
  obtain ⟨rest, hr, _⟩ := answers_state hi
  rw [hr, ← hi.log, List.append_assoc, ← List.append_nil (s.log.map (·.1)), List.zip_append (by simp)]
  simp only [List.zip_nil_left, List.append_nil]
  simp [List.zip_map']

example : (State.init.run [.op 1 .reserve, .op 2 .reserve, .data 2 .reserve, .data 1 .reserve, .readOp, .readData, .reply 1, .readOp, .readData,
    .reply 2]).map (·.log) = some [(1, 2), (2, 1)] ∧
    threadAnswers [(1, .reserve), (2, .reserve)] [(2, .reserve), (1, .reserve)] = [2, 1] := by decide

/-- Every call that waits is answered once the monitor has read what was sent, if the orders allow it: the replies received and under way are those. -/
theorem C140_answered_partial (acts : List Act) (s : State) (h : State.init.run acts = some s) (h1 : s.step .readOp = none)
    (h2 : s.step .readData = none) : s.log.map (·.2) ++ s.replies = threadAnswers (sentOps acts) (sentData acts) := by
  have hi := inv_run acts h
  obtain ⟨rest, hr, hq⟩ := answers_state hi
  rw [hr, hq, List.append_nil]
  cases he : s.ended with
  | true => exact .inl rfl
  | false =>
    cases hre : s.reading with
    | none =>
      cases ho : s.ops with
      | nil => exact .inr (.inl ⟨rfl, rfl⟩)
      | cons x l =>
        simp only [State.step, he, hre, ho] at h1
        split at h1 <;> cases h1
    | some x =>
      cases hd : s.data with
      | nil => exact .inr (.inr ⟨rfl, rfl⟩)
      | cons y l =>
        simp only [State.step, he, hre, hd] at h2
        split at h2 <;> cases h2

example : (State.init.run [.op 1 .count, .op 2 .wait, .readOp, .readOp]).map (fun s => (s.step .readOp, s.step .readData, s.replies)) =
    some (none, none, [1]) := by decide

/-- Exactly: the monitor has ended only if some operation got data of another kind of request, and if so it ends as soon as it has read them. -/
theorem C140_monitor_exactly_partial (acts : List Act) (s : State) (h : State.init.run acts = some s) :
    (s.ended = true → ThreadMismatch (sentOps acts) (sentData acts)) ∧
    (s.step .readOp = none → s.step .readData = none → ThreadMismatch (sentOps acts) (sentData acts) → s.ended = true) := by
  have hi := inv_run acts h
  obtain ⟨O, D, hh, hO, hD, hE⟩ := hi.done
  have hk := handled_data hh
  constructor
  · intro he
    obtain ⟨c, k, d, k', e1, e2, e3⟩ := hE he
    refine ⟨D.length, k, k', ?_, ?_, e2⟩
    · rw [hO, e1]
      have := hi.reading c k e1
      simp only [List.filter_append, List.map_append, hk, Option.toList_some, List.filter_cons, this, if_true, List.append_assoc]
      rw [List.getElem?_append_right (by simp)]
      simp
    · rw [e3]
      simp
  · intro h1 h2 ⟨j, k, k', m1, m2, m3⟩
    cases he : s.ended with
    | true => rfl
    | false =>
      exfalso
      rw [hO] at m1
      rw [hD he] at m2
      simp only [List.filter_append, List.map_append, hk, List.append_assoc] at m1 m2
      have hlt : ¬ j < (D.map (·.2)).length := by
        intro hj
        rw [List.getElem?_append_left hj] at m1 m2
        rw [m1] at m2
        exact m3 (by simpa using m2)
      rw [List.getElem?_append_right (by omega)] at m1 m2
      cases hre : s.reading with
      | none =>
        cases ho : s.ops with
        | nil => simp [hre, ho] at m1
        | cons x l =>
          simp only [State.step, he, hre, ho] at h1
          split at h1 <;> cases h1
      | some x =>
        cases hd : s.data with
        | nil => simp [hd] at m2
        | cons y l =>
          simp only [State.step, he, hre, hd] at h2
          split at h2 <;> cases h2

example : (State.init.run [.op 1 .wait, .op 2 .reserve, .data 2 .reserve, .readOp, .readData]).map (·.ended) = some true ∧
    (State.init.run [.op 1 .reserve, .op 2 .reserve, .data 2 .reserve, .readOp, .readData]).map (·.ended) = some false := by decide

private theorem answers_prefix : ∀ (O D : List (Nat × Kind)), D <+: O.filter (·.2.data) → threadAnswers O D <+: O.map (·.1)
  | [], D, _ => by simp [threadAnswers]
  | (c, k) :: O, D, h => by
    by_cases hk : k = .count
    · subst hk
      simp only [threadAnswers, if_true, List.map_cons, List.cons_prefix_cons, true_and]
      exact answers_prefix O D (by simpa [Kind.data] using h)
    · have hd : k.data = true := by cases k <;> simp [Kind.data] at hk ⊢
      simp only [List.filter_cons, hd, if_true] at h
      cases D with
      | nil => simp [threadAnswers, hk]
      | cons x D =>
        obtain ⟨h1, h2⟩ := List.cons_prefix_cons.1 h
        subst h1
        simp only [threadAnswers, hk, if_false, if_true, List.map_cons, List.cons_prefix_cons, true_and]
        exact answers_prefix O D h2

private theorem zip_prefix {α : Type} {a b l : List α} (ha : a <+: l) (hb : b <+: l) : ∀ x ∈ a.zip b, x.2 = x.1 := by
  obtain ⟨a', rfl⟩ := ha
  induction a generalizing b with
  | nil => simp
  | cons y a ih =>
    cases b with
    | nil => simp
    | cons z b =>
      obtain ⟨h1, h2⟩ := List.cons_prefix_cons.1 hb
      subst h1
      intro x hx
      rcases List.mem_cons.1 hx with rfl | hx
      · rfl
      · exact ih h2 x hx

/-- C140 (part): if threads send their data and receive their replies in the order in which they sent the operations, every call receives its own
reply and the monitor goes on. Missing: other orders. -/
theorem C140_orders_partial (acts : List Act) (s : State) (h : State.init.run acts = some s)
    (hd : sentData acts <+: (sentOps acts).filter (·.2.data)) (hr : received acts <+: (sentOps acts).map (·.1)) :
    s.ended = false ∧ ∀ x ∈ s.log, x.2 = x.1 := by
  constructor
  · cases he : s.ended with
    | false => rfl
    | true =>
      exfalso
      obtain ⟨j, k, k', m1, m2, m3⟩ := (C140_monitor_exactly_partial acts s h).1 he
      obtain ⟨r, hr⟩ := hd
      rw [← hr, List.map_append, List.getElem?_append_left (List.getElem?_eq_some_iff.1 m2).1, m2] at m1
      exact m3 (by simpa using m1.symm)
  · rw [C140_replies_exactly_partial acts s h]
    exact zip_prefix hr (answers_prefix _ _ hd)

example : (State.init.run [.op 1 .reserve, .data 1 .reserve, .op 2 .count, .op 3 .wait, .readOp, .readData, .readOp, .data 3 .wait, .reply 1, .readOp,
    .reply 2, .readData, .reply 3]).map (·.log) = some [(1, 1), (2, 2), (3, 3)] := by decide

/-- Where the calls are in a history without overlapping calls. -/
private def SerInv (s : State) : Prop :=
  (s.log.map (·.1) = s.begun.map (·.1) ∧ s.sent = s.begun.filter (·.2.data)) ∨
  ∃ L c k, s.begun = L ++ [(c, k)] ∧ s.log.map (·.1) = L.map (·.1) ∧
    (s.sent = L.filter (·.2.data) ∨ (k.data = true ∧ s.sent = L.filter (·.2.data) ++ [(c, k)]))

private theorem serInv (acts : List Act) (s : State) (h : State.init.run acts = some s) (hser : ThreadSerial acts) : SerInv s := by
  induction acts using List.reverseRecOn generalizing s with
  | nil => cases h; exact .inl ⟨rfl, rfl⟩
  | append_singleton as a ih =>
    obtain ⟨t, ht, hs⟩ := run_concat h
    have hi := inv_run as ht
    have hser' : ThreadSerial as := fun pre c k post e => hser pre c k (post ++ [a]) (by rw [e]; simp)
    have hS := ih t ht hser'
    cases a with
    | op c k =>
      simp only [State.step] at hs
      split at hs
      · cases hs
      · cases hs
        rcases hS with ⟨h1, h2⟩ | ⟨L, c', k', h1, h2, h3⟩
        · exact .inr ⟨t.begun, c, k, rfl, h1, .inl h2⟩
        · exfalso
          have hm : (c', k') ∈ sentOps as := by rw [← hi.begun, h1]; simp
          simp only [sentOps, List.mem_filterMap] at hm
          obtain ⟨a, ha, hea⟩ := hm
          cases a with
          | op c'' k'' =>
            simp only [Option.some.injEq, Prod.mk.injEq] at hea
            obtain ⟨rfl, rfl⟩ := hea
            have hrep := hser as c k [] (by simp) c'' k'' ha
            have : c'' ∈ received as := List.mem_filterMap.2 ⟨_, hrep, rfl⟩
            rw [← hi.log, h2] at this
            have hn := hi.nodup
            rw [h1, List.map_append] at hn
            exact (List.nodup_append.1 hn).2.2 c'' this c'' (by simp) rfl
          | _ => cases hea
    | data c k =>
      simp only [State.step] at hs
      split at hs
      · rename_i hc
        obtain ⟨hb, hk, hns⟩ := hc
        cases hs
        rcases hS with ⟨h1, h2⟩ | ⟨L, c', k', h1, h2, h3⟩
        · exact absurd (by rw [h2]; exact List.mem_filter.2 ⟨hb, hk⟩) hns
        · rw [h1] at hb
          rcases List.mem_append.1 hb with hb | hb
          · exfalso
            have hF : (c, k) ∈ L.filter (·.2.data) := List.mem_filter.2 ⟨hb, hk⟩
            rcases h3 with h3 | ⟨_, h3⟩
            · exact hns (by rw [h3]; exact hF)
            · exact hns (by rw [h3]; exact List.mem_append_left _ hF)
          · simp only [List.mem_singleton, Prod.mk.injEq] at hb
            obtain ⟨rfl, rfl⟩ := hb
            rcases h3 with h3 | ⟨_, h3⟩
            · exact .inr ⟨L, c, k, h1, h2, .inr ⟨hk, by simp [h3]⟩⟩
            · exact absurd (by rw [h3]; simp) hns
      · cases hs
    | readOp =>
      simp only [State.step] at hs
      split at hs
      · split at hs <;> cases hs <;> exact hS
      · cases hs
    | readData =>
      simp only [State.step] at hs
      split at hs
      · split at hs <;> cases hs <;> exact hS
      · cases hs
    | reply c =>
      simp only [State.step] at hs
      split at hs
      · rename_i r rest e1 e2
        cases hs
        simp only [State.waits, Bool.and_eq_true, List.any_eq_true, decide_eq_true_eq, Bool.or_eq_true, Bool.not_eq_true'] at e1
        obtain ⟨⟨x, hx, hxc, hd⟩, hnl⟩ := e1
        rcases hS with ⟨h1, h2⟩ | ⟨L, c', k', h1, h2, h3⟩
        · exact absurd (by rw [h1]; exact List.mem_map.2 ⟨x, hx, hxc⟩) hnl
        · rw [h1] at hx
          rcases List.mem_append.1 hx with hx | hx
          · exact absurd (by rw [h2]; exact List.mem_map.2 ⟨x, hx, hxc⟩) hnl
          · simp only [List.mem_singleton] at hx
            subst hx
            simp only at hxc hd
            subst hxc
            refine .inl ⟨by simp [h1, h2], ?_⟩
            have hn := hi.nodup
            rw [h1, List.map_append] at hn
            have hnL : (c', k') ∉ L := fun hm => (List.nodup_append.1 hn).2.2 c' (List.mem_map.2 ⟨_, hm, rfl⟩) c' (by simp) rfl
            simp only [h1, List.filter_append, List.filter_cons, List.filter_nil]
            rcases h3 with h3 | ⟨hk, h3⟩
            · rcases hd with hd | hd
              · simp [h3, hd]
              · exfalso
                rw [h3] at hd
                exact hnL (List.mem_filter.1 hd).1
            · simp [h3, hk]
      · cases hs

/-- C140 (part): if calls do not overlap, for instance because the program has a lock, every call receives its own reply and the monitor goes on. -/
theorem C140_serial_partial (acts : List Act) (s : State) (h : State.init.run acts = some s) (hser : ThreadSerial acts) :
    s.ended = false ∧ ∀ x ∈ s.log, x.2 = x.1 := by
  have hi := inv_run acts h
  have hS := serInv acts s h hser
  refine C140_orders_partial acts s h ?_ ?_
  · rw [← hi.sent, ← hi.begun]
    rcases hS with ⟨_, h2⟩ | ⟨L, c, k, h1, _, h3⟩
    · rw [h2]; exact List.prefix_rfl
    · rw [h1, List.filter_append]
      rcases h3 with h3 | ⟨hk, h3⟩
      · rw [h3]; exact List.prefix_append _ _
      · rw [h3]; simp [hk]
  · rw [← hi.log, ← hi.begun]
    rcases hS with ⟨h1, _⟩ | ⟨L, c, k, h1, h2, _⟩
    · rw [h1]; exact List.prefix_rfl
    · rw [h2, h1, List.map_append]; exact List.prefix_append _ _

example : (State.init.run [.op 1 .reserve, .data 1 .reserve, .readOp, .readData, .reply 1, .op 0 .count, .readOp, .reply 0]).map (·.log) =
    some [(1, 1), (0, 0)] := by decide

/-- C140 is violated: two threads that put objects write each into the memory of the other's object, though both sent their requests whole. -/
theorem C140_swapped_violated : ∃ s, State.init.run [.op 1 .reserve, .data 1 .reserve, .op 2 .reserve, .data 2 .reserve, .readOp, .readData, .reply 2,
    .readOp, .readData, .reply 1] = some s ∧ s.log = [(2, 1), (1, 2)] := ⟨_, rfl, by decide⟩

example : (State.init.run [.op 1 .count, .op 2 .wait, .data 2 .wait, .readOp, .reply 2]).map (·.log) = some [(2, 1)] := by decide

/-- C140 is violated: the data of two calls that overtake one another end the monitor. -/
theorem C140_monitor_violated : ∃ s, State.init.run [.op 1 .wait, .op 2 .reserve, .data 2 .reserve, .data 1 .wait, .readOp, .readData] = some s ∧
    s.ended = true := ⟨_, rfl, by decide⟩

example : (State.init.run [.op 1 .reserve, .op 2 .wait, .data 2 .wait, .data 1 .reserve, .readOp, .readData]).map (·.ended) = some true := by decide

/-- C140 is violated: two calls make the same reference. -/
theorem C140_ids_violated : ∃ s, Ids.init.run [.take 1, .take 2, .load 1, .store 1, .load 2, .store 2] = some s ∧ s.taken = [(1, 0), (2, 0)] :=
  ⟨_, rfl, by decide⟩

example : (Ids.init.run [.take 1, .take 2, .load 1, .store 1, .load 2, .store 2]).map (·.counter) = some 2 := by decide

/-- C140 is violated: an increment that was overtaken sets the counter back, so that calls 3 and 4, which do not overlap, make the same reference. -/
theorem C140_back_violated : ∃ s, Ids.init.run [.take 1, .load 1, .take 2, .load 2, .store 2, .take 3, .load 3, .store 3, .store 1, .take 4, .load 4,
    .store 4] = some s ∧ s.taken = [(1, 0), (2, 0), (3, 1), (4, 1)] := ⟨_, rfl, by decide⟩

example : (Ids.init.run [.take 1, .load 1, .take 2, .load 2, .store 2, .take 3, .load 3, .store 3, .store 1]).map (·.counter) = some 1 := by decide

/-- C140 is violated. -/
theorem C140_violated : ¬ C140_full := by
  intro h
  obtain ⟨s, h1, h2⟩ := C140_ids_violated
  have := h.1 _ s h1
  rw [h2] at this
  exact absurd this (by decide)

example : ¬ (([(1, 0), (2, 0)] : List (Nat × Nat)).map (·.2)).Nodup := by decide

private theorem ids_append (as bs : List IdAct) (s : Ids) : s.run (as ++ bs) = (s.run as).bind fun t => t.run bs := by
  induction as generalizing s with
  | nil => rfl
  | cons a as ih =>
    simp only [List.cons_append, Ids.run]
    cases s.step a with
    | none => rfl
    | some t => simp [ih]

/-- C140 (part): calls that do not overlap make different references, numbered in order. Missing: overlapping calls. -/
theorem C140_ids_partial (cs : List Nat) (hn : cs.Nodup) :
    ∃ s, Ids.init.run (cs.flatMap fun c => [.take c, .load c, .store c]) = some s ∧ s.taken = cs.zip (List.range cs.length) := by
  suffices hh : ∃ s, Ids.init.run (cs.flatMap fun c => [.take c, .load c, .store c]) = some s ∧ s.taken = cs.zip (List.range cs.length) ∧
      s.counter = cs.length ∧ s.loaded = cs ∧ s.regs = [] by
    obtain ⟨s, h1, h2, _⟩ := hh
    exact ⟨s, h1, h2⟩
  induction cs using List.reverseRecOn with
  | nil => exact ⟨_, rfl, rfl, rfl, rfl, rfl⟩
  | append_singleton cs c ih =>
    obtain ⟨hn1, _, hn2⟩ := List.nodup_append.1 hn
    have hc : c ∉ cs := fun hm => hn2 c hm c (by simp) rfl
    obtain ⟨s, h1, h2, h3, h4, h5⟩ := ih hn1
    have hm : s.taken.map (·.1) = cs := by rw [h2]; exact List.map_fst_zip (by simp)
    refine ⟨⟨cs.length + 1, s.taken ++ [(c, cs.length)], cs ++ [c], []⟩, ?_, ?_, by simp, rfl, rfl⟩
    · rw [List.flatMap_append, ids_append, h1]
      simp [Ids.run, Ids.step, hm, hc, h3, h4, h5]
    · simp only [h2, List.length_append, List.length_singleton, List.range_succ]
      rw [List.zip_append (by simp)]
      rfl

example : (Ids.init.run [.take 7, .load 7, .store 7, .take 3, .load 3, .store 3]).map (·.taken) = some [(7, 0), (3, 1)] := by decide

/-- Numbers are never skipped: whatever overlaps, the number of a call is at most the number of calls that read theirs before. -/
theorem C140_numbers_partial (acts : List IdAct) (s : Ids) (h : Ids.init.run acts = some s) (j : Nat) (x : Nat × Nat)
    (hx : s.taken[j]? = some x) : x.2 ≤ j := by
  suffices hh : (∀ (j : Nat) (x : Nat × Nat), s.taken[j]? = some x → x.2 ≤ j) ∧ s.counter ≤ s.loaded.length ∧
      (∀ r ∈ s.regs, r.2 < s.loaded.length) ∧ s.loaded.Nodup ∧ s.loaded ⊆ s.taken.map (·.1) from hh.1 j x hx
  clear hx j x
  induction acts using List.reverseRecOn generalizing s with
  | nil => cases h; simp [Ids.init]
  | append_singleton as a ih =>
    rw [ids_append, Option.bind_eq_some_iff] at h
    obtain ⟨t, ht, h⟩ := h
    simp only [Ids.run, Option.bind_eq_some_iff] at h
    obtain ⟨u, hs, h⟩ := h
    cases h
    obtain ⟨h1, h2, h3, h4, h5⟩ := ih t ht
    have hlen : t.loaded.length ≤ t.taken.length := by
      have := (h4.subperm h5).length_le
      simpa using this
    cases a with
    | take c =>
      simp only [Ids.step] at hs
      split at hs
      · cases hs
      · cases hs
        refine ⟨?_, h2, h3, h4, fun y hy => by simp only [List.map_append]; exact List.mem_append_left _ (h5 hy)⟩
        intro j x hx
        rcases Nat.lt_or_ge j t.taken.length with hj | hj
        · rw [List.getElem?_append_left hj] at hx
          exact h1 j x hx
        · rw [List.getElem?_append_right hj] at hx
          rcases Nat.eq_zero_or_pos (j - t.taken.length) with h0 | h0
          · rw [h0] at hx
            simp only [List.getElem?_cons_zero, Option.some.injEq] at hx
            subst hx
            simp only
            omega
          · obtain ⟨n, hn⟩ := Nat.exists_eq_add_of_lt h0
            rw [hn] at hx
            simp at hx
    | load c =>
      simp only [Ids.step] at hs
      split at hs
      · rename_i hc
        cases hs
        refine ⟨h1, by simp only [List.length_append, List.length_singleton]; omega, ?_, ?_, ?_⟩
        · intro r hr
          simp only [List.length_append, List.length_singleton]
          rcases List.mem_append.1 hr with hr | hr
          · have := h3 r hr; omega
          · simp only [List.mem_singleton] at hr; subst hr; simp only; omega
        · exact List.nodup_append.2 ⟨h4, by simp, fun y hy z hz e => hc.2 (by simp only [List.mem_singleton] at hz; rw [← hz, ← e]; exact hy)⟩
        · intro y hy
          rcases List.mem_append.1 hy with hy | hy
          · exact h5 hy
          · simp only [List.mem_singleton] at hy; subst hy; exact hc.1
      · cases hs
    | store c =>
      simp only [Ids.step, Option.map_eq_some_iff] at hs
      obtain ⟨r, hr, hs⟩ := hs
      cases hs
      have := h3 r (List.mem_of_find?_eq_some hr)
      exact ⟨h1, this, fun y hy => h3 y (List.mem_filter.1 hy).1, h4, h5⟩

example : (Ids.init.run [.take 1, .take 2, .load 1, .load 2, .store 1, .store 2, .take 3]).map (·.taken) = some [(1, 0), (2, 0), (3, 1)] := by decide

end Verif.Props
