import Verif.Model.Valued
import Verif.Spec.Valued

/-! Helper lemmas about the model with values: forgetting the values gives the model of lifetimes. -/
namespace Verif.Valued
open Verif.Spec.Valued

def Task.bare (t : Task) : Lifetime.Task := ⟨refs t.args, t.outs, t.method⟩

def Msg.bare : Msg → Lifetime.Msg
  | .data i _ => .data i
  | .owner i r => .owner i r
  | .task t => .task t.bare
  | .ask i s => .ask i s
  | .clean ids => .clean ids

def bareOut (m : Nat × Msg) : Nat × Lifetime.Msg := (m.1, m.2.bare)

def bareNet (m : Nat × Nat × Msg) : Nat × Nat × Lifetime.Msg := (m.1, m.2.1, m.2.2.bare)

def Proc.bare (p : Proc) : Lifetime.Proc :=
  ⟨p.data.map (·.1), p.strong, p.owners, p.tasks.map Task.bare, p.methods.map Task.bare, p.asked, p.asks, p.sent, p.crashed, p.outbox.map bareOut, p.done⟩

def Sys.bare (s : Sys) : Lifetime.Sys :=
  ⟨s.ws, fun w => (s.worker w).bare, s.next, s.held, s.stored.map (·.1), s.owner, s.sent, s.queue, s.waiting, s.submitted, s.executed, s.reports, s.net.map bareNet, s.cleaned⟩

theorem lookup_none {l : List (Nat × Val)} {i : Nat} : l.lookup i = none ↔ i ∉ l.map (·.1) := by
  induction l with
  | nil => simp
  | cons a l ih =>
    obtain ⟨k, v⟩ := a
    by_cases h : i = k
    · subst h; simp [List.lookup]
    · have h' : (i == k) = false := by simpa using h
      simp [List.lookup, h', h, ih]

theorem lookup_some {l : List (Nat × Val)} {i : Nat} {v : Val} (h : l.lookup i = some v) : (i, v) ∈ l := by
  induction l with
  | nil => simp at h
  | cons a l ih =>
    obtain ⟨k, u⟩ := a
    by_cases e : i = k
    · subst e; simp [List.lookup] at h; simp [h]
    · have h' : (i == k) = false := by simpa using e
      simp only [List.lookup, h'] at h
      exact List.mem_cons_of_mem _ (ih h)

theorem lookup_isSome {l : List (Nat × Val)} {i : Nat} : (l.lookup i).isSome = true ↔ i ∈ l.map (·.1) := by
  cases h : l.lookup i with
  | none => simp [lookup_none.1 h]
  | some v => simp only [Option.isSome_some, true_iff]; exact List.mem_map.2 ⟨_, lookup_some h, rfl⟩

theorem bare_keep (p : Proc) (i : Nat) : (p.keep i).bare = p.bare.keep i := by
  unfold Proc.keep Lifetime.Proc.keep
  by_cases h : i ∈ p.strong
  · simp [h, Proc.bare]
  · simp [h, Proc.bare]

theorem bare_store (p : Proc) (i : Nat) (v : Val) : (p.store i v).bare = p.bare.store i := by
  unfold Proc.store Lifetime.Proc.store
  rw [bare_keep]; rfl

theorem bare_alive (p : Proc) (i : Nat) : p.bare.alive i = p.alive i := by
  simp only [Proc.alive, Lifetime.Proc.alive, Proc.bare, Task.bare, List.any_map, Function.comp_def]
  rfl

theorem bare_sweep (p : Proc) : p.sweep.bare = p.bare.sweep := by
  simp only [Proc.sweep, Lifetime.Proc.sweep, bare_alive]
  simp only [Proc.bare, List.filter_map, Function.comp_def]

theorem bare_push (p : Proc) (i dst : Nat) (h : i ∈ p.data.map (·.1)) : (p.push i dst).bare = p.bare.push i dst := by
  obtain ⟨v, hv⟩ := Option.isSome_iff_exists.1 (lookup_isSome.2 h)
  simp only [Proc.push, Lifetime.Proc.push, hv]
  have e : p.bare.sent = p.sent := rfl
  rw [e]
  by_cases hs : (i, dst) ∈ p.sent
  · simp [hs]
  · simp [hs, Proc.bare, bareOut, Msg.bare]

theorem data_push (p : Proc) (i dst : Nat) : (p.push i dst).data = p.data := by
  unfold Proc.push
  split
  · rfl
  · split <;> rfl

theorem bare_pushes (l : List (Nat × Nat)) : ∀ (p : Proc), (∀ a ∈ l, a.1 ∈ p.data.map (·.1)) →
    (l.foldl (fun p a => p.push a.1 a.2) p).bare = l.foldl (fun p a => p.push a.1 a.2) p.bare ∧
    (l.foldl (fun p a => p.push a.1 a.2) p).data = p.data := by
  induction l with
  | nil => intro p _; exact ⟨rfl, rfl⟩
  | cons a l ih =>
    intro p h
    simp only [List.foldl_cons]
    have := ih (p.push a.1 a.2) (by intro b hb; rw [data_push]; exact h b (List.mem_cons_of_mem _ hb))
    rw [this.1, this.2, data_push, bare_push p _ _ (h a List.mem_cons_self)]
    exact ⟨rfl, rfl⟩

theorem bare_answer (p : Proc) (i : Nat) (h : i ∈ p.data.map (·.1)) : (p.answer i).bare = p.bare.answer i ∧ (p.answer i).data = p.data := by
  unfold Proc.answer Lifetime.Proc.answer
  have := bare_pushes (p.asks.filter (fun a => a.1 = i)) { p with asks := p.asks.filter (fun a => a.1 ≠ i) } (by
    intro a ha
    have := (List.mem_filter.1 ha).2
    simp only [decide_eq_true_eq] at this
    rw [this]; exact h)
  exact this

theorem bare_answers (l : List Nat) : ∀ (p : Proc), (∀ i ∈ l, i ∈ p.data.map (·.1)) →
    (l.foldl Proc.answer p).bare = l.foldl Lifetime.Proc.answer p.bare ∧ (l.foldl Proc.answer p).data = p.data := by
  induction l with
  | nil => intro p _; exact ⟨rfl, rfl⟩
  | cons a l ih =>
    intro p h
    simp only [List.foldl_cons]
    have ha := bare_answer p a (h a List.mem_cons_self)
    have := ih (p.answer a) (by intro b hb; rw [ha.2]; exact h b (List.mem_cons_of_mem _ hb))
    rw [this.1, this.2, ha.1, ha.2]
    exact ⟨rfl, rfl⟩

theorem data_keep (p : Proc) (i : Nat) : (p.keep i).data = p.data := by
  unfold Proc.keep; split <;> rfl

theorem bare_stores (l : List (Nat × Val)) : ∀ (p : Proc),
    (l.foldl (fun p e => p.store e.1 e.2) p).bare = (l.map (·.1)).foldl Lifetime.Proc.store p.bare ∧
    (l.foldl (fun p e => p.store e.1 e.2) p).data = l.reverse ++ p.data := by
  induction l with
  | nil => intro p; exact ⟨rfl, rfl⟩
  | cons a l ih =>
    intro p
    simp only [List.foldl_cons, List.map_cons]
    rw [(ih _).1, (ih _).2, bare_store]
    refine ⟨rfl, ?_⟩
    simp [Proc.store, data_keep]

theorem length_results (W : World) (vs : List Val) (n : Nat) : (results W vs n).length = n := by
  unfold results
  split
  · simp
  · split <;> simp

theorem zip_fst {outs : List Nat} {vs : List Val} (h : vs.length = outs.length) : (outs.zip vs).map (·.1) = outs := by
  rw [List.map_fst_zip (by omega)]

theorem bare_execute (W : World) (p : Proc) (t : Task) (vs : List Val) : (p.execute W t vs).bare = p.bare.execute t.bare := by
  unfold Proc.execute Lifetime.Proc.execute
  have hs := bare_stores (t.outs.zip (results W vs t.outs.length)) p
  rw [zip_fst (length_results _ _ _)] at hs
  have ha := bare_answers t.outs ((t.outs.zip (results W vs t.outs.length)).foldl (fun p e => p.store e.1 e.2) p) (by
    intro i hi
    rw [hs.2, List.map_append, List.map_reverse, zip_fst (length_results _ _ _)]
    simp [hi])
  rw [hs.1] at ha
  show ({ t.outs.foldl Proc.answer _ with done := _ } : Proc).bare = _
  have e : ∀ q : Proc, ({ q with done := q.done + 1 } : Proc).bare = { q.bare with done := q.bare.done + 1 } := fun _ => rfl
  rw [e, ha.1]
  rfl

theorem bare_request (me : Nat) (p : Proc) (i : Nat) : (p.request me i).bare = p.bare.request me i := by
  unfold Proc.request Lifetime.Proc.request
  have e : p.bare.owners = p.owners := rfl
  have e' : p.bare.asked = p.asked := rfl
  rw [e, e']
  cases p.owners.lookup i with
  | none => rfl
  | some o =>
    dsimp only
    split
    · rfl
    · simp [Proc.bare, bareOut, Msg.bare]

theorem bare_requests (me : Nat) (l : List Nat) : ∀ p : Proc, (l.foldl (Proc.request me) p).bare = l.foldl (Lifetime.Proc.request me) p.bare := by
  induction l with
  | nil => intro p; rfl
  | cons a l ih => intro p; rw [List.foldl_cons, List.foldl_cons, ih, bare_request]

theorem refs_resolve (p : Proc) (args : List Arg) : refs (args.map p.resolve) = (refs args).filter (fun i => i ∉ p.bare.data) := by
  induction args with
  | nil => rfl
  | cons a args ih =>
    have ec : ∀ (b : Arg) (l : List Arg), refs (b :: l) = refs [b] ++ refs l := by
      intro b l; cases b <;> rfl
    rw [List.map_cons, ec, ec a, ih, List.filter_append]
    congr 1
    cases a with
    | val v => rfl
    | ref i =>
      simp only [Proc.resolve]
      cases h : p.data.lookup i with
      | none =>
        have : i ∉ p.bare.data := lookup_none.1 h
        show [i] = List.filter _ [i]
        rw [List.filter_cons_of_pos (by exact decide_eq_true this)]; rfl
      | some v =>
        have : i ∈ p.bare.data := lookup_isSome.1 (by rw [h]; rfl : (p.data.lookup i).isSome = true)
        show [] = List.filter _ [i]
        rw [List.filter_cons_of_neg (by simpa using this)]; rfl

theorem bare_attempt (W : World) (me : Nat) (p : Proc) (t : Task) :
    (p.attempt W me t).1.bare = (p.bare.attempt me t.bare).1 ∧
    (p.attempt W me t).2.map Task.bare = (p.bare.attempt me t.bare).2 := by
  unfold Proc.attempt Lifetime.Proc.attempt
  simp only [refs_resolve]
  have e : t.bare.args = refs t.args := rfl
  have e' : p.bare.owners = p.owners := rfl
  rw [e, e']
  split
  · exact ⟨bare_execute _ _ _ _, rfl⟩
  · split
    · exact ⟨rfl, rfl⟩
    · refine ⟨bare_requests _ _ _, ?_⟩
      simp [Task.bare, refs_resolve]

theorem bare_pass (W : World) (me : Nat) (ts : List Task) : ∀ (p : Proc),
    (Proc.pass W me ts p).1.bare = (Lifetime.Proc.pass me (ts.map Task.bare) p.bare).1 ∧
    (Proc.pass W me ts p).2.map Task.bare = (Lifetime.Proc.pass me (ts.map Task.bare) p.bare).2 := by
  induction ts with
  | nil => intro p; exact ⟨rfl, rfl⟩
  | cons t ts ih =>
    intro p
    simp only [Proc.pass, Lifetime.Proc.pass, List.map_cons]
    have ha := bare_attempt W me p t
    have hi := ih (p.attempt W me t).1
    rw [ha.1] at hi
    refine ⟨hi.1, ?_⟩
    rw [List.map_append, hi.2, ← ha.2]
    cases (p.attempt W me t).2 <;> rfl

theorem bare_checkTasks (W : World) (me : Nat) (p : Proc) : (p.checkTasks W me).bare = p.bare.checkTasks me := by
  unfold Proc.checkTasks Lifetime.Proc.checkTasks
  have := bare_pass W me p.tasks p
  have e : ∀ (q : Proc) (l : List Task), ({ q with tasks := l } : Proc).bare = { q.bare with tasks := l.map Task.bare } := fun _ _ => rfl
  rw [e, this.1, this.2]
  rfl

theorem bare_checkMethods (W : World) (me : Nat) (p : Proc) : (p.checkMethods W me).bare = p.bare.checkMethods me := by
  unfold Proc.checkMethods Lifetime.Proc.checkMethods
  have := bare_pass W me p.methods p
  have e : ∀ (q : Proc) (l : List Task), ({ q with methods := l } : Proc).bare = { q.bare with methods := l.map Task.bare } := fun _ _ => rfl
  rw [e, this.1, this.2]
  rfl

theorem bare_receive (W : World) (me : Nat) (p : Proc) (m : Msg) : (p.receive W me m).bare = p.bare.receive me m.bare := by
  cases m with
  | data i v =>
    simp only [Proc.receive, Lifetime.Proc.receive, Msg.bare]
    rw [bare_checkMethods, bare_checkTasks]
    have e : ∀ (q : Proc) (l : List Nat), ({ q with asked := l } : Proc).bare = { q.bare with asked := l } := fun _ _ => rfl
    rw [e, bare_store]
    rfl
  | owner i r =>
    simp only [Proc.receive, Lifetime.Proc.receive, Msg.bare]
    rw [bare_keep]; rfl
  | task t =>
    simp only [Proc.receive, Lifetime.Proc.receive, Msg.bare]
    have ha := bare_attempt W me p t
    rw [← ha.2, ← ha.1]
    have em : t.bare.method = t.method := rfl
    rw [em]
    cases (p.attempt W me t).2 with
    | none =>
      cases t.method
      · exact bare_checkTasks _ _ _
      · exact bare_checkMethods _ _ _
    | some t' =>
      cases t.method
      · simp [Proc.bare]
      · simp [Proc.bare]
  | ask i src =>
    simp only [Proc.receive, Lifetime.Proc.receive, Msg.bare]
    have e : p.bare.asks = p.asks := rfl
    by_cases h : (p.data.lookup i).isSome = true
    · have h' : i ∈ p.bare.data := lookup_isSome.1 h
      rw [if_pos h, if_pos h', bare_push _ _ _ h']
    · have h' : i ∉ p.bare.data := fun hc => h (lookup_isSome.2 hc)
      rw [if_neg h, if_neg h', e]
      split <;> rfl
  | clean ids => rfl

def Op.bare : Op → Lifetime.Op
  | .put _ => .put
  | .drop i => .drop i
  | .submit args n d m => .submit (refs args) n d m
  | .get ids => .get ids
  | .deliver s d => .deliver s d
  | .report => .report
  | .cleanup => .cleanup

theorem bare_next (src d : Nat) (l : List (Nat × Nat × Msg)) :
    Lifetime.takeMsg src d (l.map bareNet) = (nextMsg src d l).map fun r => (r.1.bare, r.2.map bareNet) := by
  induction l with
  | nil => rfl
  | cons m l ih =>
    simp only [List.map_cons, Lifetime.takeMsg, nextMsg]
    by_cases h : m.1 = src ∧ m.2.1 = d
    · have h' : (bareNet m).1 = src ∧ (bareNet m).2.1 = d := h
      rw [if_pos h, if_pos h']; rfl
    · have h' : ¬ ((bareNet m).1 = src ∧ (bareNet m).2.1 = d) := h
      rw [if_neg h, if_neg h', ih]
      cases nextMsg src d l <;> rfl

theorem bare_sysPush (d : Nat) (s : Sys) (i : Nat) : (s.push d i).bare = s.bare.push d i := by
  unfold Sys.push Lifetime.Sys.push
  have e1 : s.bare.sent = s.sent := rfl
  have e2 : s.bare.owner = s.owner := rfl
  cases h : s.stored.lookup i with
  | some v =>
    have h' : i ∈ s.bare.stored := lookup_isSome.1 (by rw [h]; rfl)
    rw [if_pos h', e1]
    dsimp only
    split
    · rfl
    · simp [Sys.bare, bareNet, Msg.bare]
  | none =>
    have h' : i ∉ s.bare.stored := lookup_none.1 h
    rw [if_neg h', e2]
    dsimp only
    cases s.owner i with
    | none => rfl
    | some o => simp [Sys.bare, bareNet, Msg.bare]

theorem bare_sysPushes (d : Nat) (l : List Nat) : ∀ s : Sys, (l.foldl (Sys.push d) s).bare = l.foldl (Lifetime.Sys.push d) s.bare := by
  induction l with
  | nil => intro s; rfl
  | cons a l ih => intro s; rw [List.foldl_cons, List.foldl_cons, ih, bare_sysPush]

theorem bare_setWorker (s : Sys) (d : Nat) (p : Proc) : (s.setWorker d p).bare = s.bare.setWorker d p.bare := by
  unfold Sys.setWorker Lifetime.Sys.setWorker
  rw [← bare_sweep]
  simp only [Sys.bare, Lifetime.Sys.mk.injEq, true_and, List.map_append, List.map_map]
  refine ⟨?_, rfl, ?_⟩
  · funext w
    split <;> rfl
  · simp [Proc.bare, bareNet, bareOut, Function.comp_def]

theorem bare_step (W : World) (s : Sys) (op : Op) : (s.step W op).map Sys.bare = s.bare.step op.bare := by
  cases op with
  | put v =>
    simp only [Sys.step, Lifetime.Sys.step, Op.bare]
    have e : s.bare.waiting = s.waiting := rfl
    rw [e]
    split <;> rfl
  | drop i =>
    simp only [Sys.step, Lifetime.Sys.step, Op.bare]
    have e : s.bare.waiting = s.waiting := rfl
    have e' : s.bare.held = s.held := rfl
    rw [e, e']
    split
    · rfl
    · simp [Sys.bare, List.filter_map, Function.comp_def]
  | submit args n d m =>
    simp only [Sys.step, Lifetime.Sys.step, Op.bare]
    have e : s.bare.waiting = s.waiting := rfl
    have e' : s.bare.held = s.held := rfl
    have e'' : s.bare.ws = s.ws := rfl
    rw [e, e', e'']
    split
    · rfl
    · simp only [Option.map_some, Option.some.injEq]
      have h := bare_sysPushes d (refs args) { s with next := s.next + n, held := List.range' s.next n ++ s.held, owner := fun i => if i ∈ List.range' s.next n then some d else s.owner i }
      generalize (refs args).foldl (Sys.push d) { s with next := s.next + n, held := List.range' s.next n ++ s.held, owner := fun i => if i ∈ List.range' s.next n then some d else s.owner i } = u at h ⊢
      show ({ u with net := _, submitted := _ } : Sys).bare = _
      have e3 : ∀ x k, ({ u with net := u.net ++ [x], submitted := k } : Sys).bare = { u.bare with net := u.bare.net ++ [bareNet x], submitted := k } := by
        intro x k; simp [Sys.bare]
      have e4 : u.submitted = u.bare.submitted := rfl
      rw [e3, e4, h]
      rfl
  | get ids =>
    simp only [Sys.step, Lifetime.Sys.step, Op.bare]
    have e : s.bare.waiting = s.waiting := rfl
    have e' : s.bare.held = s.held := rfl
    have e'' : s.bare.owner = s.owner := rfl
    rw [e, e']
    split
    · rfl
    · have ef : ids.filter (fun i => (s.stored.lookup i).isNone) = ids.filter (fun i => i ∉ s.bare.stored) := by
        apply List.filter_congr
        intro i _
        cases h : s.stored.lookup i with
        | none => exact (decide_eq_true (lookup_none.1 h)).symm
        | some v =>
          have : i ∈ s.bare.stored := lookup_isSome.1 (by rw [h]; rfl : (s.stored.lookup i).isSome = true)
          exact (decide_eq_false (fun hc => hc this)).symm
      rw [ef, e'']
      simp only [Option.map_some, Option.some.injEq, Sys.bare, List.map_append, List.map_map]
      congr 1
  | deliver src d =>
    simp only [Sys.step, Lifetime.Sys.step, Op.bare]
    have e : s.bare.net = s.net.map bareNet := rfl
    rw [e, bare_next]
    cases h : nextMsg src d s.net with
    | none => rfl
    | some r =>
      obtain ⟨m, rest⟩ := r
      simp only [Option.map_some]
      by_cases h0 : d = 0
      · simp only [h0, if_true]
        cases m with
        | data i v =>
          simp only [Msg.bare, Option.map_some, Option.some.injEq]
          have e' : s.bare.held = s.held := rfl
          rw [e']
          by_cases hh : i ∈ s.held
          · simp only [hh, if_true]; rfl
          · simp only [hh, if_false]; rfl
        | owner i r => rfl
        | task t => rfl
        | ask i r => rfl
        | clean ids => rfl
      · simp only [h0, if_false]
        have e' : (s.bare.worker d).crashed = (s.worker d).crashed := rfl
        rw [e']
        split
        · rfl
        · simp only [Option.map_some, Option.some.injEq]
          rw [bare_setWorker, bare_receive]
          rfl
  | report =>
    simp only [Sys.step, Lifetime.Sys.step, Op.bare]
    have e : s.bare.reports = s.reports := rfl
    rw [e]
    split <;> rfl
  | cleanup =>
    simp only [Sys.step, Lifetime.Sys.step, Op.bare]
    have e : s.bare.waiting = s.waiting := rfl
    have e' : s.bare.executed = s.executed := rfl
    have e'' : s.bare.submitted = s.submitted := rfl
    rw [e, e', e'']
    split
    · rfl
    · simp only [Option.map_some, Option.some.injEq, Sys.bare, List.map_append, List.map_map]
      rfl

theorem bare_run (W : World) (ops : List Op) : ∀ s : Sys, (s.run W ops).map Sys.bare = s.bare.run (ops.map Op.bare) := by
  induction ops with
  | nil => intro s; rfl
  | cons op ops ih =>
    intro s
    simp only [Sys.run, Lifetime.Sys.run, List.map_cons]
    rw [← bare_step]
    cases s.step W op with
    | none => rfl
    | some s' => exact ih s'

end Verif.Valued
