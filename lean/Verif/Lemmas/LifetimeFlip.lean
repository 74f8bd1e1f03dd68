import Verif.Lemmas.LifetimeEnd

/-! Method calls on workers to which no tasks are sent meanwhile are like tasks. -/
namespace Verif.Lifetime

def tag (t : Task) : Task := { t with method := false }

def tagMsg : Msg → Msg
  | .task t => .task (tag t)
  | m => m

def setTM (p : Proc) (L M : List Task) : Proc := { p with tasks := L, methods := M }

def flip (p : Proc) : Proc := setTM p ((p.tasks ++ p.methods).map tag) []

/-! ### What a worker does with a call does not depend on the other calls held back -/

theorem store_setTM (p : Proc) (L M : List Task) (i : Nat) : (setTM p L M).store i = setTM (p.store i) L M := by
  unfold Proc.store Proc.keep setTM
  simp only
  split <;> rfl

theorem stores_setTM (l : List Nat) (p : Proc) (L M : List Task) : l.foldl Proc.store (setTM p L M) = setTM (l.foldl Proc.store p) L M := by
  induction l generalizing p with
  | nil => rfl
  | cons i l ih => rw [List.foldl_cons, List.foldl_cons, store_setTM, ih]

theorem push_setTM (p : Proc) (L M : List Task) (i d : Nat) : (setTM p L M).push i d = setTM (p.push i d) L M := by
  unfold Proc.push setTM
  simp only
  split <;> rfl

theorem pushes_setTM (l : List (Nat × Nat)) (p : Proc) (L M : List Task) :
    l.foldl (fun p a => p.push a.1 a.2) (setTM p L M) = setTM (l.foldl (fun p a => p.push a.1 a.2) p) L M := by
  induction l generalizing p with
  | nil => rfl
  | cons i l ih => rw [List.foldl_cons, List.foldl_cons, push_setTM, ih]

theorem answer_setTM (p : Proc) (L M : List Task) (i : Nat) : (setTM p L M).answer i = setTM (p.answer i) L M :=
  pushes_setTM (p.asks.filter (fun a => a.1 = i)) { p with asks := p.asks.filter (fun a => a.1 ≠ i) } L M

theorem answers_setTM (l : List Nat) (p : Proc) (L M : List Task) : l.foldl Proc.answer (setTM p L M) = setTM (l.foldl Proc.answer p) L M := by
  induction l generalizing p with
  | nil => rfl
  | cons i l ih => rw [List.foldl_cons, List.foldl_cons, answer_setTM, ih]

theorem execute_setTM (p : Proc) (L M : List Task) (t : Task) : (setTM p L M).execute (tag t) = setTM (p.execute t) L M := by
  unfold Proc.execute
  simp only [tag]
  rw [stores_setTM, answers_setTM]
  rfl

theorem request_setTM (me : Nat) (p : Proc) (L M : List Task) (i : Nat) : (setTM p L M).request me i = setTM (p.request me i) L M := by
  unfold Proc.request
  show (match p.owners.lookup i with | none => _ | some o => _) = _
  cases p.owners.lookup i with
  | none => rfl
  | some o =>
    simp only
    show (if i ∈ p.asked ∨ o = me then _ else _) = _
    split <;> rfl

theorem requests_setTM (me : Nat) (l : List Nat) (p : Proc) (L M : List Task) :
    l.foldl (Proc.request me) (setTM p L M) = setTM (l.foldl (Proc.request me) p) L M := by
  induction l generalizing p with
  | nil => rfl
  | cons i l ih => rw [List.foldl_cons, List.foldl_cons, request_setTM, ih]

theorem attempt_setTM (me : Nat) (p : Proc) (L M : List Task) (t : Task) :
    (setTM p L M).attempt me (tag t) = (setTM (p.attempt me t).1 L M, (p.attempt me t).2.map tag) := by
  unfold Proc.attempt
  have e : (tag t).args.filter (fun i => decide (i ∉ (setTM p L M).data)) = t.args.filter (fun i => decide (i ∉ p.data)) := rfl
  simp only [e]
  have e2 : (setTM p L M).owners = p.owners := rfl
  simp only [e2, execute_setTM, requests_setTM]
  split
  · rfl
  · split <;> rfl

theorem pass_setTM (me : Nat) (ts : List Task) (p : Proc) (L M : List Task) :
    Proc.pass me (ts.map tag) (setTM p L M) = (setTM (Proc.pass me ts p).1 L M, (Proc.pass me ts p).2.map tag) := by
  induction ts generalizing p with
  | nil => rfl
  | cons t ts ih =>
    simp only [List.map_cons, Proc.pass, attempt_setTM, ih]
    cases (p.attempt me t).2 <;> simp

theorem pass_append (me : Nat) (A B : List Task) (p : Proc) :
    Proc.pass me (A ++ B) p = ((Proc.pass me B (Proc.pass me A p).1).1, (Proc.pass me A p).2 ++ (Proc.pass me B (Proc.pass me A p).1).2) := by
  induction A generalizing p with
  | nil => simp [Proc.pass]
  | cons t A ih => simp only [List.cons_append, Proc.pass, ih, List.append_assoc]

theorem attempt_setTM' (me : Nat) (p : Proc) (L M : List Task) (t : Task) :
    (setTM p L M).attempt me t = (setTM (p.attempt me t).1 L M, (p.attempt me t).2) := by
  unfold Proc.attempt
  have e : t.args.filter (fun i => decide (i ∉ (setTM p L M).data)) = t.args.filter (fun i => decide (i ∉ p.data)) := rfl
  simp only [e]
  have e2 : (setTM p L M).owners = p.owners := rfl
  have e3 : (setTM p L M).execute t = setTM (p.execute t) L M := execute_setTM p L M t
  simp only [e2, e3, requests_setTM]
  split
  · rfl
  · split <;> rfl

theorem attempt_tm (me : Nat) (p : Proc) (t : Task) : (p.attempt me t).1.tasks = p.tasks ∧ (p.attempt me t).1.methods = p.methods := by
  have h : p.attempt me t = (setTM (p.attempt me t).1 p.tasks p.methods, (p.attempt me t).2) := attempt_setTM' me p p.tasks p.methods t
  rw [h]
  exact ⟨rfl, rfl⟩

theorem pass_tm (me : Nat) (ts : List Task) (p : Proc) : (Proc.pass me ts p).1.tasks = p.tasks ∧ (Proc.pass me ts p).1.methods = p.methods := by
  induction ts generalizing p with
  | nil => exact ⟨rfl, rfl⟩
  | cons t ts ih =>
    have h := ih (p.attempt me t).1
    have h2 := attempt_tm me p t
    exact ⟨h.1.trans h2.1, h.2.trans h2.2⟩

theorem attempt_method (me : Nat) (p : Proc) (t : Task) : ∀ t' ∈ (p.attempt me t).2, t'.method = t.method := by
  unfold Proc.attempt
  simp only
  split
  · simp
  · split
    · simp
    · intro t' h
      cases h
      rfl

theorem pass_method (me : Nat) (ts : List Task) (p : Proc) (b : Bool) (h : ∀ t ∈ ts, t.method = b) : ∀ t ∈ (Proc.pass me ts p).2, t.method = b := by
  induction ts generalizing p with
  | nil => simp [Proc.pass]
  | cons t ts ih =>
    intro t' ht'
    rcases List.mem_append.1 (show t' ∈ (p.attempt me t).2.toList ++ (Proc.pass me ts (p.attempt me t).1).2 from ht') with g | g
    · rw [attempt_method me p t t' (by simpa using g)]
      exact h t List.mem_cons_self
    · exact ih _ (fun t ht => h t (List.mem_cons_of_mem _ ht)) t' g

/-- A call that misses arguments, all of which it has asked for. -/
def Blocked (me : Nat) (p : Proc) (t : Task) : Prop :=
  t.args ≠ [] ∧ ∀ i ∈ t.args, i ∉ p.data ∧ ∃ o, p.owners.lookup i = some o ∧ (i ∈ p.asked ∨ o = me)

theorem requests_stuck (me : Nat) (l : List Nat) (p : Proc) (h : ∀ i ∈ l, ∃ o, p.owners.lookup i = some o ∧ (i ∈ p.asked ∨ o = me)) :
    l.foldl (Proc.request me) p = p := by
  induction l with
  | nil => rfl
  | cons i l ih =>
    obtain ⟨o, h1, h2⟩ := h i List.mem_cons_self
    have : p.request me i = p := by
      unfold Proc.request
      rw [h1]
      exact if_pos h2
    rw [List.foldl_cons, this]
    exact ih fun j hj => h j (List.mem_cons_of_mem _ hj)

theorem attempt_stuck (me : Nat) (p : Proc) (t : Task) (h : Blocked me p t) : p.attempt me t = (p, some t) := by
  have e : t.args.filter (fun i => decide (i ∉ p.data)) = t.args := by
    rw [List.filter_eq_self]
    intro i hi
    simpa using (h.2 i hi).1
  unfold Proc.attempt
  simp only [e]
  rw [if_neg h.1, if_neg, requests_stuck me _ _ (fun i hi => (h.2 i hi).2)]
  simp only [List.any_eq_true, not_exists, not_and, Bool.not_eq_true]
  intro i hi
  obtain ⟨o, h1, -⟩ := (h.2 i hi).2
  rw [h1]
  rfl

theorem pass_stuck (me : Nat) (ts : List Task) (p : Proc) (h : ∀ t ∈ ts, Blocked me p t) : Proc.pass me ts p = (p, ts) := by
  induction ts with
  | nil => rfl
  | cons t ts ih =>
    simp only [Proc.pass]
    rw [attempt_stuck me p t (h t List.mem_cons_self), ih fun t ht => h t (List.mem_cons_of_mem _ ht)]
    rfl

/-- A call that stays stuck when another one runs. -/
theorem stuck_execute (me : Nat) (p : Proc) (t u : Task) (h : Blocked me p t) (hr : Ready p u.args)
    (hb : ∀ i ∈ t.args, i ∉ u.outs) : Blocked me (p.attempt me u).1 t := by
  have a := attempt_work me p u hr
  have f := attempt_flow me p u hr
  refine ⟨h.1, fun i hi => ?_⟩
  obtain ⟨h1, o, h2, h3⟩ := h.2 i hi
  refine ⟨fun hin => ?_, o, by rw [a.owners]; exact h2, h3.imp_left (f.askedMono i)⟩
  rcases a.new i hin with g | ⟨v, hv, g⟩
  · exact h1 g
  · rw [List.mem_singleton.1 hv] at g
    exact hb i hi g

theorem pass_setTM' (me : Nat) (ts : List Task) (p : Proc) (L M : List Task) :
    Proc.pass me ts (setTM p L M) = (setTM (Proc.pass me ts p).1 L M, (Proc.pass me ts p).2) := by
  induction ts generalizing p with
  | nil => rfl
  | cons t ts ih => simp only [Proc.pass, attempt_setTM', ih]

theorem setTM_self (p : Proc) : setTM p p.tasks p.methods = p := rfl

theorem setTM_twice (p : Proc) (L M L' M' : List Task) : setTM (setTM p L M) L' M' = setTM p L' M' := rfl

theorem checkTasks_setTM (me : Nat) (p : Proc) (L M : List Task) :
    (setTM p L M).checkTasks me = setTM (Proc.pass me L p).1 (Proc.pass me L p).2 M := by
  show ({ (Proc.pass me L (setTM p L M)).1 with tasks := (Proc.pass me L (setTM p L M)).2 } : Proc) = _
  rw [pass_setTM']
  rfl

theorem checkMethods_setTM (me : Nat) (p : Proc) (L M : List Task) :
    (setTM p L M).checkMethods me = setTM (Proc.pass me M p).1 L (Proc.pass me M p).2 := by
  show ({ (Proc.pass me M (setTM p L M)).1 with methods := (Proc.pass me M (setTM p L M)).2 } : Proc) = _
  rw [pass_setTM']
  rfl

theorem pass_tag (me : Nat) (ts : List Task) (p : Proc) : Proc.pass me (ts.map tag) p = ((Proc.pass me ts p).1, (Proc.pass me ts p).2.map tag) := by
  have h := pass_setTM me ts p p.tasks p.methods
  have e := pass_tm me ts p
  rw [setTM_self] at h
  rw [h, ← e.1, ← e.2, setTM_self]

/-! ### Receiving a message -/

theorem flip_receive (me : Nat) (p : Proc) (m : Msg)
    (h1 : ∀ t, m = .task t → t.method = false → p.methods = [])
    (h2 : ∀ t, m = .task t → t.method = true → Ready p t.args ∧ ∀ u ∈ p.tasks, Blocked me p u ∧ ∀ i ∈ u.args, i ∉ t.outs) :
    (flip p).receive me (tagMsg m) = flip (p.receive me m) := by
  cases m with
  | data i =>
    obtain ⟨l, e, -, -⟩ := store_rest p i
    have hs : { (flip p).store i with asked := (flip p).asked.filter (fun j => j ≠ i) } =
        setTM { p.store i with asked := p.asked.filter (fun j => j ≠ i) } ((p.tasks ++ p.methods).map tag) [] := by
      unfold flip
      rw [store_setTM]
      rfl
    simp only [tagMsg, Proc.receive, hs]
    generalize hq : ({ p.store i with asked := p.asked.filter (fun j => j ≠ i) } : Proc) = q
    have hqt : q.tasks = p.tasks := by rw [← hq, e]
    have hqm : q.methods = p.methods := by rw [← hq, e]
    rw [← hqt, ← hqm, checkTasks_setTM, checkMethods_setTM]
    have e2 : q.checkTasks me = setTM (Proc.pass me q.tasks q).1 (Proc.pass me q.tasks q).2 q.methods := checkTasks_setTM me q q.tasks q.methods
    rw [e2, checkMethods_setTM, pass_tag, pass_append]
    rfl
  | owner i r =>
    show Proc.keep (setTM { p with owners := (i, r) :: p.owners.filter (fun e => e.1 ≠ i) } ((p.tasks ++ p.methods).map tag) []) i = flip _
    simp only [Proc.receive]
    unfold Proc.keep
    show (if i ∈ p.strong then _ else _) = _
    simp only
    split <;> rfl
  | task t =>
    have htm := attempt_tm me p t
    have ha : (flip p).attempt me (tag t) = (setTM (p.attempt me t).1 ((p.tasks ++ p.methods).map tag) [], (p.attempt me t).2.map tag) := attempt_setTM me p _ _ t
    have hf : (tag t).method = false := rfl
    simp only [tagMsg, Proc.receive, ha, hf]
    cases hres : (p.attempt me t).2 with
    | some t' =>
      simp only [Option.map_some]
      cases hmt : t.method with
      | false =>
        have := h1 t rfl hmt
        rw [htm.1]
        show setTM _ _ _ = setTM _ _ _
        simp only [this, htm.2, List.append_nil, List.map_append]
        rfl
      | true =>
        rw [htm.2]
        show setTM _ _ _ = setTM _ _ _
        simp only [htm.1, List.map_append, setTM, List.append_assoc, List.map_cons, List.map_nil]
    | none =>
      simp only [Option.map_none]
      rw [checkTasks_setTM, pass_tag]
      cases hmt : t.method with
      | false =>
        have := h1 t rfl hmt
        have e2 : (p.attempt me t).1.checkTasks me = setTM (Proc.pass me p.tasks (p.attempt me t).1).1 (Proc.pass me p.tasks (p.attempt me t).1).2 p.methods := by
          have := checkTasks_setTM me (p.attempt me t).1 p.tasks p.methods
          rw [← this, ← htm.1, ← htm.2, setTM_self]
        simp only [e2, this, List.append_nil]
        show _ = setTM _ _ _
        simp [setTM]
      | true =>
        obtain ⟨hr, hu⟩ := h2 t rfl hmt
        have e2 : (p.attempt me t).1.checkMethods me = setTM (Proc.pass me p.methods (p.attempt me t).1).1 p.tasks (Proc.pass me p.methods (p.attempt me t).1).2 := by
          have := checkMethods_setTM me (p.attempt me t).1 p.tasks p.methods
          rw [← this, ← htm.1, ← htm.2, setTM_self]
        have e3 := pass_stuck me p.tasks (p.attempt me t).1 fun u hx => stuck_execute me p u t (hu u hx).1 hr (hu u hx).2
        simp only [e2, pass_append, e3]
        rfl
  | ask i src =>
    show (if i ∈ p.data then (flip p).push i src else if (i, src) ∈ p.asks then flip p else { flip p with asks := (i, src) :: p.asks }) = flip _
    simp only [Proc.receive]
    split
    · unfold flip
      rw [push_setTM]
      obtain ⟨a, b, e⟩ := push_rest p i src
      rw [e]
    · split <;> rfl
  | clean ids => rfl

theorem flip_alive (p : Proc) (i : Nat) : (flip p).alive i = p.alive i := by
  unfold Proc.alive flip setTM
  simp only [List.any_append, List.map_append, List.any_map, List.any_nil, Bool.or_false]
  have e : ∀ L : List Task, L.any ((fun t => decide (i ∈ t.args) || decide (i ∈ t.outs)) ∘ tag) = L.any (fun t => decide (i ∈ t.args) || decide (i ∈ t.outs)) := fun L => rfl
  rw [e, e]
  simp only [Bool.or_assoc]

theorem flip_sweep (p : Proc) : (flip p).sweep = flip p.sweep := by
  unfold Proc.sweep
  simp only [flip_alive]
  rfl

/-! ### All processes -/

def tagNet (net : List (Nat × Nat × Msg)) : List (Nat × Nat × Msg) := net.map fun x => (x.1, x.2.1, tagMsg x.2.2)

/-- The same system if all calls were tasks, and `k` of them had been submitted. -/
def fl (s : Sys) (k : Nat) : Sys := { s with worker := fun w => flip (s.worker w), net := tagNet s.net, submitted := k }

theorem tagNet_append (a b : List (Nat × Nat × Msg)) : tagNet (a ++ b) = tagNet a ++ tagNet b := by simp [tagNet]

theorem takeMsg_tag (x y : Nat) (net : List (Nat × Nat × Msg)) :
    takeMsg x y (tagNet net) = (takeMsg x y net).map fun r => (tagMsg r.1, tagNet r.2) := by
  induction net with
  | nil => rfl
  | cons m net ih =>
    show takeMsg x y ((m.1, m.2.1, tagMsg m.2.2) :: tagNet net) = _
    simp only [takeMsg]
    split
    · rfl
    · rw [ih]
      cases takeMsg x y net <;> rfl

theorem fl_push (d k : Nat) (s : Sys) (i : Nat) : Sys.push d (fl s k) i = fl (Sys.push d s i) k := by
  unfold Sys.push
  show (if i ∈ s.stored then (if (i, d) ∈ s.sent then _ else _) else match s.owner i with | some o => _ | none => _) = _
  split
  · split
    · rfl
    · simp [fl, tagNet, tagMsg]
  · cases s.owner i with
    | none => rfl
    | some o => simp [fl, tagNet, tagMsg]

theorem fl_pushes (d k : Nat) (l : List Nat) (s : Sys) : l.foldl (Sys.push d) (fl s k) = fl (l.foldl (Sys.push d) s) k := by
  induction l generalizing s with
  | nil => rfl
  | cons i l ih => rw [List.foldl_cons, List.foldl_cons, fl_push, ih]

theorem fl_submit {s s' : Sys} {k n d : Nat} {args : List Nat} {b : Bool} (h : s.step (.submit args n d b) = some s') :
    (fl s k).step (.submit args n d false) = some (fl s' (k + 1)) := by
  simp only [Sys.step] at h ⊢
  split at h
  · cases h
  · rename_i hc
    have hc' : ¬ ((fl s k).waiting ≠ [] ∨ d ∉ (fl s k).ws ∨ (args.any fun i => decide (i ∉ (fl s k).held)) = true) := hc
    rw [if_neg hc']
    cases h
    have e := fl_pushes d k args { s with next := s.next + n, held := List.range' s.next n ++ s.held, owner := fun i => if i ∈ List.range' s.next n then some d else s.owner i }
    have e2 : ({ fl s k with next := (fl s k).next + n, held := List.range' (fl s k).next n ++ (fl s k).held, owner := fun i => if i ∈ List.range' (fl s k).next n then some d else (fl s k).owner i } : Sys) =
      fl { s with next := s.next + n, held := List.range' s.next n ++ s.held, owner := fun i => if i ∈ List.range' s.next n then some d else s.owner i } k := rfl
    rw [e2, e]
    generalize args.foldl (Sys.push d) _ = s1
    simp only [Option.some.injEq]
    simp [fl, tagNet, tagMsg, tag]

theorem fl_simple {s s' : Sys} {k : Nat} {op : Op} (ho : op = .put ∨ (∃ i, op = .drop i) ∨ op = .report) (h : s.step op = some s') :
    (fl s k).step op = some (fl s' k) := by
  rcases ho with rfl | ⟨i, rfl⟩ | rfl
  · simp only [Sys.step] at h ⊢
    show (if s.waiting ≠ [] then none else _) = _
    split at h
    · cases h
    · rename_i hc
      rw [if_neg hc]; cases h; rfl
  · simp only [Sys.step] at h ⊢
    show (if s.waiting ≠ [] ∨ i ∉ s.held then none else _) = _
    split at h
    · cases h
    · rename_i hc
      rw [if_neg hc]; cases h; rfl
  · simp only [Sys.step] at h ⊢
    show (if s.reports = 0 then none else _) = _
    split at h
    · cases h
    · rename_i hc
      rw [if_neg hc]; cases h; rfl

theorem fl_get {s s' : Sys} {k : Nat} {ids : List Nat} (h : s.step (.get ids) = some s') : (fl s k).step (.get ids) = some (fl s' k) := by
  simp only [Sys.step] at h ⊢
  show (if s.waiting ≠ [] ∨ (ids.any fun i => decide (i ∉ s.held)) = true then none else _) = _
  split at h
  · cases h
  · rename_i hc
    rw [if_neg hc]; cases h
    simp only [Option.some.injEq]
    simp only [fl, tagNet, List.map_append, List.map_map]
    rfl

theorem fl_cleanAll (s : Sys) (k : Nat) : (fl s k).cleanAll = fl s.cleanAll k := by
  simp [Sys.cleanAll, fl, tagNet, tagMsg]

theorem fl_setWorker {s : Sys} {d k : Nat} {p : Proc} (h : ∀ x ∈ p.outbox, (∃ i, x.2 = .data i) ∨ ∃ i j, x.2 = .ask i j) :
    (fl s k).setWorker d (flip p) = fl (s.setWorker d p) k := by
  have hb : tagNet (p.outbox.map fun x => (d, x.1, x.2)) = p.outbox.map fun x => (d, x.1, x.2) := by
    unfold tagNet
    rw [List.map_map]
    apply List.map_congr_left
    intro x hx
    rcases h x hx with ⟨i, e⟩ | ⟨i, j, e⟩ <;> simp [e, tagMsg]
  have hw : (fun w => if w = d then { (flip p).sweep with outbox := [], done := 0 } else flip (s.worker w)) =
      fun w => flip (if w = d then { p.sweep with outbox := [], done := 0 } else s.worker w) := by
    funext w
    split
    · rw [flip_sweep]; rfl
    · rfl
  unfold Sys.setWorker
  show Sys.mk _ _ _ _ _ _ _ _ _ _ _ _ _ _ = Sys.mk _ _ _ _ _ _ _ _ _ _ _ _ _ _
  congr 1
  show tagNet s.net ++ p.outbox.map (fun m => (d, m.1, m.2)) = tagNet (s.net ++ _)
  rw [tagNet_append, hb]

/-- Tasks come before methods. -/
structure Ord (s : Sys) : Prop where
  tasks : ∀ w, ∀ t ∈ (s.worker w).tasks, t.method = false
  methods : ∀ w, ∀ t ∈ (s.worker w).methods, t.method = true
  order : ∀ w, ((s.worker w).methods ++ tasksOf (chan 0 w s.net)).Pairwise fun a b => a.method = true → b.method = true

/-- The invariant of programs with actors. -/
structure Good (s : Sys) (k : Nat) : Prop where
  inv : Inv (fl s k)
  live : Live (fl s k)
  closed : Closed (fl s k)
  ord : Ord s

theorem good_init (ws : List Nat) (h0 : 0 ∉ ws) (hn : ws.Nodup) : Good (Sys.init ws) 0 := by
  have e : fl (Sys.init ws) 0 = Sys.init ws := rfl
  refine ⟨?_, ?_, ?_, ⟨?_, ?_, ?_⟩⟩
  · rw [e]; exact inv_init ws h0 hn
  · rw [e]; exact live_init ws
  · rw [e]; exact closed_init ws
  · simp [Sys.init, Proc.init]
  · simp [Sys.init, Proc.init]
  · simp [Sys.init, Proc.init, chan, tasksOf]

theorem mem_tagNet {net : List (Nat × Nat × Msg)} {x y : Nat} {m : Msg} (h : (x, y, m) ∈ net) : (x, y, tagMsg m) ∈ tagNet net :=
  List.mem_map.2 ⟨(x, y, m), h, rfl⟩

theorem tagNet_task {net : List (Nat × Nat × Msg)} {x y : Nat} {t : Task} (h : (x, y, Msg.task t) ∈ tagNet net) : ∃ u, t = tag u ∧ (x, y, Msg.task u) ∈ net := by
  obtain ⟨⟨a, b, m⟩, h1, h2⟩ := List.mem_map.1 h
  simp only [Prod.mk.injEq] at h2
  obtain ⟨rfl, rfl, h3⟩ := h2
  cases m with
  | task u =>
    simp only [tagMsg, Msg.task.injEq] at h3
    exact ⟨u, h3.symm, h1⟩
  | _ => simp [tagMsg] at h3

/-- What is held back after a message, by kind. -/
theorem receive_kinds (me : Nat) (p : Proc) (m : Msg) (h1 : ∀ t ∈ p.tasks, t.method = false) (h2 : ∀ t ∈ p.methods, t.method = true) :
    (∀ t ∈ (p.receive me m).tasks, t.method = false) ∧ (∀ t ∈ (p.receive me m).methods, t.method = true) ∧
    ((p.receive me m).methods ≠ [] → p.methods ≠ [] ∨ ∃ t, m = .task t ∧ t.method = true) := by
  have hnil : ∀ (L : List Task) (q : Proc), (Proc.pass me L q).2 ≠ [] → L ≠ [] := by
    rintro L q h rfl
    exact h rfl
  cases m with
  | data i =>
    obtain ⟨l, e, -, -⟩ := store_rest p i
    simp only [Proc.receive]
    generalize hq : ({ p.store i with asked := p.asked.filter (fun j => j ≠ i) } : Proc) = q
    have hqt : q.tasks = p.tasks := by rw [← hq, e]
    have hqm : q.methods = p.methods := by rw [← hq, e]
    have e2 : q.checkTasks me = setTM (Proc.pass me q.tasks q).1 (Proc.pass me q.tasks q).2 q.methods := checkTasks_setTM me q q.tasks q.methods
    rw [e2, checkMethods_setTM, hqt, hqm]
    exact ⟨pass_method me _ _ _ h1, pass_method me _ _ _ h2, fun h => Or.inl (hnil _ _ h)⟩
  | owner i r =>
    obtain ⟨l, e⟩ := keep_rest { p with owners := (i, r) :: p.owners.filter (fun e => e.1 ≠ i) } i
    have hrec : p.receive me (.owner i r) = { p with owners := (i, r) :: p.owners.filter (fun e => e.1 ≠ i), strong := l } := e
    rw [hrec]
    exact ⟨h1, h2, Or.inl⟩
  | task t =>
    have htm := attempt_tm me p t
    have hme := attempt_method me p t
    simp only [Proc.receive]
    cases hres : (p.attempt me t).2 with
    | some t' =>
      rw [hres] at hme
      have hme := hme t' rfl
      cases hmt : t.method with
      | false =>
        simp only [htm.1, htm.2]
        refine ⟨?_, h2, Or.inl⟩
        intro u hu
        rcases List.mem_append.1 hu with g | g
        · exact h1 u g
        · rw [List.mem_singleton.1 g, hme, hmt]
      | true =>
        simp only [htm.1, htm.2]
        refine ⟨h1, ?_, fun _ => Or.inr ⟨t, rfl, hmt⟩⟩
        intro u hu
        rcases List.mem_append.1 hu with g | g
        · exact h2 u g
        · rw [List.mem_singleton.1 g, hme, hmt]
    | none =>
      cases hmt : t.method with
      | false =>
        have e2 : (p.attempt me t).1.checkTasks me = setTM (Proc.pass me p.tasks (p.attempt me t).1).1 (Proc.pass me p.tasks (p.attempt me t).1).2 p.methods := by
          have := checkTasks_setTM me (p.attempt me t).1 p.tasks p.methods
          rw [← this, ← htm.1, ← htm.2, setTM_self]
        simp only [e2]
        exact ⟨pass_method me _ _ _ h1, h2, Or.inl⟩
      | true =>
        have e2 : (p.attempt me t).1.checkMethods me = setTM (Proc.pass me p.methods (p.attempt me t).1).1 p.tasks (Proc.pass me p.methods (p.attempt me t).1).2 := by
          have := checkMethods_setTM me (p.attempt me t).1 p.tasks p.methods
          rw [← this, ← htm.1, ← htm.2, setTM_self]
        simp only [e2]
        exact ⟨h1, pass_method me _ _ _ h2, fun h => Or.inl (hnil _ _ h)⟩
  | ask i src =>
    simp only [Proc.receive]
    split
    · obtain ⟨a, b, e⟩ := push_rest p i src
      rw [e]
      exact ⟨h1, h2, Or.inl⟩
    · split
      · exact ⟨h1, h2, Or.inl⟩
      · exact ⟨h1, h2, Or.inl⟩
  | clean ids => exact ⟨h1, h2, Or.inl⟩

theorem fl_deliver {s s' : Sys} {k src d : Nat} (hd : d ≠ 0) (g : Good s k) (h : s.step (.deliver src d) = some s') :
    (fl s k).step (.deliver src d) = some (fl s' k) ∧ Ord s' := by
  obtain ⟨m, rest, hm, rfl⟩ := deliver_cases hd h
  clear h
  obtain ⟨hmem, hsub, -⟩ := takeMsg_mem hm
  have hm' : takeMsg src d (fl s k).net = some (tagMsg m, tagNet rest) := by
    show takeMsg src d (tagNet s.net) = _
    rw [takeMsg_tag, hm]; rfl
  have hob : (s.worker d).outbox = [] := (g.inv.idle d).2.2.1
  have hcr : ((fl s k).worker d).crashed = false := (g.inv.idle d).2.1
  have q := receive_quiet d (s.worker d) m
  have hsrc : ∀ t, m = .task t → src = 0 := by
    rintro t rfl
    exact (g.inv.taskMsg _ _ _ (mem_tagNet hmem)).1
  have hordt : ∀ t, m = .task t → tasksOf (chan 0 d s.net) = t :: tasksOf (chan 0 d rest) := by
    rintro t rfl
    have := hsrc t rfl
    subst this
    rw [takeMsg_chan hm]
    rfl
  have hfr : ((fl s k).worker d).receive d (tagMsg m) = flip ((s.worker d).receive d m) := by
    refine flip_receive d (s.worker d) m ?_ ?_
    · intro t ht hf
      have ho := g.ord.order d
      rw [hordt t ht] at ho
      apply List.eq_nil_iff_forall_not_mem.2
      intro u hu
      have := (List.pairwise_append.1 ho).2.2 u hu t List.mem_cons_self (g.ord.methods d u hu)
      rw [hf] at this
      cases this
    · intro t ht hf
      subst ht
      have hr := todo_ready g.inv hm'
      have hp := order_take g.inv g.live hm'
      refine ⟨hr (tag t) List.mem_cons_self, fun u hu => ?_⟩
      have hu' : tag u ∈ ((fl s k).worker d).tasks := List.mem_map.2 ⟨u, List.mem_append_left _ hu, rfl⟩
      refine ⟨⟨(g.live.pend d _ hu').1, fun i hi => ?_⟩, ?_⟩
      · have hmiss : i ∉ (s.worker d).data := g.live.missing d _ hu' i hi
        refine ⟨hmiss, ?_⟩
        have hk : (s.worker d).owners.lookup i ≠ none := (g.inv.known d _ hu' i hi).2.resolve_left hmiss
        obtain ⟨o, ho⟩ := Option.ne_none_iff_exists'.1 hk
        refine ⟨o, ho, ?_⟩
        rcases (g.live.pend d _ hu').2 i hi with ha | ha
        · exact Or.inl ha
        · right
          have := g.inv.ownersTrue d _ (lookup_mem ho)
          have ha : s.owner i = some d := ha
          have this : s.owner i = some o := this
          rw [ha] at this
          cases this; rfl
      · intro i hi
        have h3 := (List.pairwise_append.1 hp).1
        have h4 : (((fl s k).worker d).tasks ++ [tag t]).Pairwise Before := h3
        exact ((List.pairwise_append.1 h4).2.2 _ hu' (tag t) (by simp)).1 i hi
  have hquiet : ∀ x ∈ ((s.worker d).receive d m).outbox, (∃ i, x.2 = .data i) ∨ ∃ i j, x.2 = .ask i j := by
    intro x hx
    rcases q x hx with h | h
    · rw [hob] at h; cases h
    · exact h
  constructor
  · simp only [Sys.step, hm']
    rw [if_neg hd, if_neg (by rw [hcr]; simp), hfr]
    have : ({ fl s k with net := tagNet rest } : Sys) = fl { s with net := rest } k := rfl
    rw [this, fl_setWorker hquiet]
  · obtain ⟨k1, k2, k3⟩ := receive_kinds d (s.worker d) m (g.ord.tasks d) (g.ord.methods d)
    generalize hp : (s.worker d).receive d m = p at k1 k2 k3 hquiet
    have hchan : ∀ w, chan 0 w (rest ++ p.outbox.map (fun y => ((d, y.1, y.2) : Nat × Nat × Msg))) = chan 0 w rest := by
      intro w
      rw [chan_append, chan_none (l := p.outbox.map _), List.append_nil]
      intro x hx g
      obtain ⟨y, -, rfl⟩ := List.mem_map.1 hx
      exact hd g.1
    have hsl : ∀ w, (tasksOf (chan 0 w rest)).Sublist (tasksOf (chan 0 w s.net)) := by
      intro w
      obtain ⟨pre, post, e1, e2, -⟩ := takeMsg_spec hm
      rw [e1, e2]
      unfold tasksOf chan
      exact ((List.Sublist.append (List.Sublist.refl _) (List.sublist_cons_self _ _)).filterMap _).filterMap _
    refine ⟨?_, ?_, ?_⟩
    · intro w t ht
      have ht : t ∈ (if w = d then { p.sweep with outbox := [], done := 0 } else s.worker w).tasks := ht
      split at ht
      · exact k1 t ht
      · exact g.ord.tasks w t ht
    · intro w t ht
      have ht : t ∈ (if w = d then { p.sweep with outbox := [], done := 0 } else s.worker w).methods := ht
      split at ht
      · exact k2 t ht
      · exact g.ord.methods w t ht
    · intro w
      show ((if w = d then { p.sweep with outbox := [], done := 0 } else s.worker w).methods ++ tasksOf (chan 0 w (rest ++ _))).Pairwise _
      rw [hchan]
      have ho := g.ord.order w
      split
      · rename_i hw
        subst hw
        refine List.pairwise_append.2 ⟨?_, (List.pairwise_append.1 ho).2.1.sublist (hsl w), ?_⟩
        · show p.methods.Pairwise _
          refine List.Pairwise.imp_of_mem (R := fun _ _ => True) ?_ (List.pairwise_of_forall (by simp))
          intro a b _ hb _ _
          exact k2 b hb
        · intro a ha b hb _
          rcases k3 (List.ne_nil_of_mem ha) with h | ⟨t, h, ht⟩
          · obtain ⟨c, hc⟩ := List.exists_mem_of_ne_nil _ h
            exact (List.pairwise_append.1 ho).2.2 c hc b ((hsl w).mem hb) (g.ord.methods w c hc)
          · rw [hordt t h] at ho
            exact (List.pairwise_cons.1 (List.pairwise_append.1 ho).2.1).1 b hb ht
      · exact ho.sublist ((List.Sublist.refl _).append (hsl w))

theorem fl_deliver_root {s s' : Sys} {k src : Nat} (h : s.step (.deliver src 0) = some s') : (fl s k).step (.deliver src 0) = some (fl s' k) := by
  simp only [Sys.step] at h ⊢
  show (match takeMsg src 0 (tagNet s.net) with | none => none | some (m, rest) => _) = _
  rw [takeMsg_tag]
  cases hm : takeMsg src 0 s.net with
  | none => rw [hm] at h; cases h
  | some r =>
    obtain ⟨m, rest⟩ := r
    rw [hm] at h
    simp only [if_true] at h
    cases m with
    | data i =>
      cases h
      rfl
    | _ => cases h

theorem ord_net {s s' : Sys} (o : Ord s) (hw : s'.worker = s.worker) (L : List (Nat × Nat × Msg)) (hn : s'.net = s.net ++ L)
    (hL : ∀ x w t, (x, w, Msg.task t) ∈ L → x = 0 ∧ ∀ a, ((0, w, Msg.task a) ∈ s.net ∨ a ∈ (s.worker w).methods) → a.method = true → t.method = true)
    (hp : ∀ w, (tasksOf (chan 0 w L)).Pairwise fun a b => a.method = true → b.method = true) : Ord s' := by
  refine ⟨by rw [hw]; exact o.tasks, by rw [hw]; exact o.methods, fun w => ?_⟩
  rw [hw, hn, chan_append, tasksOf_append, ← List.append_assoc]
  refine List.pairwise_append.2 ⟨o.order w, hp w, ?_⟩
  intro a ha b hb
  have hb := mem_chan.1 (mem_tasksOf.1 hb)
  refine (hL _ _ _ hb).2 a ?_
  rcases List.mem_append.1 ha with g | g
  · exact Or.inr g
  · exact Or.inl (mem_chan.1 (mem_tasksOf.1 g))

theorem ord_quiet {s s' : Sys} (o : Ord s) (hw : s'.worker = s.worker) (L : List (Nat × Nat × Msg)) (hn : s'.net = s.net ++ L)
    (hL : ∀ x w t, (x, w, Msg.task t) ∉ L) : Ord s' := by
  refine ord_net o hw L hn (fun x w t h => absurd h (hL x w t)) fun w => ?_
  rw [tasksOf_none]
  · exact List.Pairwise.nil
  · intro t ht
    exact hL _ _ _ (mem_chan.1 ht)

/-- What a step adds to the number of calls. -/
def bump : Op → Nat
  | .submit .. => 1
  | _ => 0

theorem good_step {s s' : Sys} {k : Nat} {op : Op} (g : Good s k) (hg : ∀ ids, op = .get ids → ids.Nodup)
    (hk : op = .cleanup → s.step .cleanup ≠ none → ∀ w t, Unfinished s w t → ∀ i ∈ t.args, i ∉ s.queue)
    (ha : ∀ args n d, op = .submit args n d false → ∀ t, t.method = true → ¬ Unfinished s d t)
    (h : s.step op = some s') : Good s' (k + bump op) := by
  have hmk : ∀ op', (∀ args n d, op' ≠ .submit args n d true) → (∀ ids, op' = .get ids → ids.Nodup) → ∀ k', (fl s k).step op' = some (fl s' k') → Ord s' → Good s' k' :=
    fun op' h1 h2 k' h3 h4 => ⟨inv_step g.inv h1 h3, live_step g.inv g.live h1 h2 h3, closed_step g.inv g.live g.closed h1 h3, h4⟩
  cases op with
  | put =>
    refine hmk .put (by simp) (by simp) k (fl_simple (Or.inl rfl) h) ?_
    simp only [Sys.step] at h
    split at h
    · cases h
    · cases h; exact ⟨g.ord.tasks, g.ord.methods, g.ord.order⟩
  | drop i =>
    refine hmk (.drop i) (by simp) (by simp) k (fl_simple (Or.inr (Or.inl ⟨i, rfl⟩)) h) ?_
    simp only [Sys.step] at h
    split at h
    · cases h
    · cases h; exact ⟨g.ord.tasks, g.ord.methods, g.ord.order⟩
  | report =>
    refine hmk .report (by simp) (by simp) k (fl_simple (Or.inr (Or.inr rfl)) h) ?_
    simp only [Sys.step] at h
    split at h
    · cases h
    · cases h; exact ⟨g.ord.tasks, g.ord.methods, g.ord.order⟩
  | get ids =>
    refine hmk (.get ids) (by simp) (fun l e => hg l e) k (fl_get h) ?_
    simp only [Sys.step] at h
    split at h
    · cases h
    · cases h
      refine ord_quiet g.ord rfl _ rfl ?_
      intro x w t hx
      obtain ⟨i, -, e⟩ := List.mem_map.1 hx
      cases e
  | cleanup =>
    have hne : s.step .cleanup ≠ none := by rw [h]; simp
    obtain ⟨rfl, -⟩ := cleanup_cleanAll h
    have hq : ∀ w t, Unf (fl s k) w t → ∀ i ∈ t.args, i ∉ (fl s k).queue := by
      rintro w t (hu | hu)
      · obtain ⟨u, rfl, hx⟩ := tagNet_task hu
        exact hk rfl hne w u (Or.inl hx)
      · obtain ⟨u, hx, rfl⟩ := List.mem_map.1 hu
        exact hk rfl hne w u (Or.inr (List.mem_append.1 hx))
    refine ⟨?_, ?_, ?_, ?_⟩
    · show Inv (fl s.cleanAll k)
      rw [← fl_cleanAll]; exact inv_cleanAll g.inv hq
    · show Live (fl s.cleanAll k)
      rw [← fl_cleanAll]; exact live_cleanAll g.inv g.live
    · show Closed (fl s.cleanAll k)
      rw [← fl_cleanAll]; exact closed_cleanAll g.closed
    · refine ord_quiet g.ord rfl _ rfl ?_
      intro x w t hx
      obtain ⟨i, -, e⟩ := List.mem_map.1 hx
      cases e
  | submit args n d b =>
    refine hmk (.submit args n d false) (by simp) (by simp) (k + 1) (fl_submit h) ?_
    simp only [Sys.step] at h
    split at h
    · cases h
    · cases h
      obtain ⟨L, sn, e, p1, -⟩ := pushes_spec d args { s with next := s.next + n, held := List.range' s.next n ++ s.held, owner := fun i => if i ∈ List.range' s.next n then some d else s.owner i }
      rw [e]
      have hLt : ∀ x w t, (x, w, Msg.task t) ∉ L := by
        intro x w t hx
        obtain ⟨-, -, k | k⟩ := p1 _ hx
        · obtain ⟨j, -, -, k, -⟩ := k; cases k
        · obtain ⟨j, -, o, -, -, k⟩ := k; cases k
      refine ord_net g.ord rfl (L ++ [(0, d, .task ⟨args, List.range' s.next n, b⟩)]) (by simp) ?_ ?_
      · intro x w t hx
        rcases List.mem_append.1 hx with hx | hx
        · exact absurd hx (hLt x w t)
        · have := List.mem_singleton.1 hx
          simp only [Prod.mk.injEq, Msg.task.injEq] at this
          obtain ⟨rfl, rfl, rfl⟩ := this
          refine ⟨rfl, fun a hu hm => ?_⟩
          cases b with
          | true => rfl
          | false =>
            refine absurd ?_ (ha args n w rfl a hm)
            rcases hu with hu | hu
            · exact Or.inl hu
            · exact Or.inr (Or.inr hu)
      · intro w
        rw [chan_append, tasksOf_append, tasksOf_none (c := chan 0 w L) (fun t ht => hLt _ _ _ (mem_chan.1 ht)), List.nil_append]
        by_cases hw : d = w
        · simp [chan, hw, tasksOf]
        · simp [chan, hw, tasksOf]
  | deliver src d =>
    by_cases hd : d = 0
    · subst hd
      refine hmk (.deliver src 0) (by simp) (by simp) k (fl_deliver_root h) ?_
      simp only [Sys.step] at h
      split at h
      · cases h
      · rename_i m rest hm
        simp only [if_true] at h
        split at h
        · cases h
          refine ⟨g.ord.tasks, g.ord.methods, fun w => (g.ord.order w).sublist ((List.Sublist.refl _).append ?_)⟩
          show (tasksOf (chan 0 w rest)).Sublist _
          obtain ⟨pre, post, e1, e2, -⟩ := takeMsg_spec hm
          rw [e1, e2]
          unfold tasksOf chan
          exact ((List.Sublist.append (List.Sublist.refl _) (List.sublist_cons_self _ _)).filterMap _).filterMap _
        · cases h
    · obtain ⟨h1, h2⟩ := fl_deliver hd g h
      exact hmk (.deliver src d) (by simp) (by simp) k h1 h2

theorem good_run (ops : List Op) {s s' : Sys} {k : Nat} (g : Good s k) (hg : GetsOnce ops) (hk : KeepsArguments s ops) (ha : ActorsAlone s ops)
    (h : s.run ops = some s') : Good s' (k + callCount ops) := by
  induction ops generalizing s k with
  | nil => cases h; exact g
  | cons op ops ih =>
    simp only [Sys.run, Option.bind_eq_some_iff] at h
    obtain ⟨s1, h1, h2⟩ := h
    have g1 := good_step g (by rintro ids rfl; exact hg ids List.mem_cons_self) hk.1 ha.1 h1
    have := ih g1 (fun ids hx => hg ids (List.mem_cons_of_mem _ hx)) (hk.2 s1 h1) (ha.2 s1 h1) h2
    have e : k + bump op + callCount ops = k + callCount (op :: ops) := by
      unfold callCount
      rw [List.countP_cons]
      cases op <;> simp [bump]
      omega
    rwa [e] at this

/-! ### Only arrivals -/

theorem arrive_good {s s' : Sys} {k : Nat} {op : Op} (ho : Arrives op) (g : Good s k) (h : s.step op = some s') :
    Good s' k ∧ (fl s k).step op = some (fl s' k) := by
  constructor
  · have := good_step g (op := op) (by rintro ids rfl; rcases ho with ⟨x, y, e⟩ | e <;> cases e) (by rintro rfl; rcases ho with ⟨x, y, e⟩ | e <;> cases e)
      (by rintro a n d rfl; rcases ho with ⟨x, y, e⟩ | e <;> cases e) h
    have e : bump op = 0 := by rcases ho with ⟨x, y, rfl⟩ | rfl <;> rfl
    rwa [e] at this
  · rcases ho with ⟨x, y, rfl⟩ | rfl
    · by_cases hy : y = 0
      · subst hy; exact fl_deliver_root h
      · exact (fl_deliver hy g h).1
    · exact fl_simple (Or.inr (Or.inr rfl)) h

theorem arrive_good_run (ds : List Op) {s s' : Sys} {k : Nat} (ho : ∀ op ∈ ds, Arrives op) (g : Good s k) (h : s.run ds = some s') :
    Good s' k ∧ (fl s k).run ds = some (fl s' k) := by
  induction ds generalizing s with
  | nil => cases h; exact ⟨g, rfl⟩
  | cons op ds ih =>
    simp only [Sys.run, Option.bind_eq_some_iff] at h
    obtain ⟨s1, h1, h2⟩ := h
    obtain ⟨g1, e1⟩ := arrive_good (ho op List.mem_cons_self) g h1
    obtain ⟨g2, e2⟩ := ih (fun op h => ho op (List.mem_cons_of_mem _ h)) g1 h2
    exact ⟨g2, by simp only [Sys.run, e1, Option.bind_some, e2]⟩

/-- What cannot arrive in a system cannot arrive if all calls were tasks. -/
theorem arrive_none {s : Sys} {k : Nat} {op : Op} (ho : Arrives op) (h : s.step op = none) : (fl s k).step op = none := by
  rcases ho with ⟨x, y, rfl⟩ | rfl
  · simp only [Sys.step] at h ⊢
    show (match takeMsg x y (tagNet s.net) with | none => none | some (m, rest) => _) = _
    rw [takeMsg_tag]
    cases hm : takeMsg x y s.net with
    | none => rfl
    | some r =>
      obtain ⟨m, rest⟩ := r
      rw [hm] at h
      simp only [Option.map_some]
      by_cases hy : y = 0
      · subst hy
        simp only [if_true] at h ⊢
        cases m with
        | data i => cases h
        | _ => rfl
      · simp only [if_neg hy] at h ⊢
        show (if (s.worker y).crashed then _ else _) = _
        split at h
        · rename_i hc
          rw [if_pos hc]
        · cases h
  · simp only [Sys.step] at h ⊢
    show (if s.reports = 0 then _ else _) = _
    split at h
    · rename_i hc
      rw [if_pos hc]
    · cases h

end Verif.Lifetime
