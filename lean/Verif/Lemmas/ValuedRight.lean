import Verif.Lemmas.Valued

/-! Helper lemmas about the model with values: all values are right. -/
namespace Verif.Valued
open Verif.Spec.Valued

theorem firstExc_eq (vs : List Val) : firstExc vs = vs.findSome? excOf := by
  induction vs with
  | nil => rfl
  | cons v vs ih => cases v with
    | ok n =>
      rw [List.findSome?_cons_of_isNone (by rfl)]
      exact ih
    | exc e => rfl

theorem plain_eq (vs : List Val) (h : firstExc vs = none) : plain vs = vs.map okOf := by
  induction vs with
  | nil => rfl
  | cons v vs ih => cases v with
    | ok n =>
      have := ih h
      simp only [plain, List.filterMap_cons, List.map_cons] at this ⊢
      rw [this]
      rfl
    | exc e => cases h

theorem results_eq (W : World) (vs : List Val) (n : Nat) : results W vs n = directly W vs n := by
  unfold results directly
  rw [← firstExc_eq]
  cases h : firstExc vs with
  | some e => rfl
  | none => rw [plain_eq vs h]; rfl

def Right (env : List Val) (e : Nat × Val) : Prop := env[e.1]? = some e.2

def TaskOk (W : World) (env : List Val) (t : Task) : Prop :=
  (∀ i ∈ refs t.args, i < env.length) ∧
  ∀ k o : Nat, t.outs[k]? = some o → env[o]? = (directly W (t.args.map (argVal env)) t.outs.length)[k]?

def MsgOk (W : World) (env : List Val) : Msg → Prop
  | .data i v => Right env (i, v)
  | .task t => TaskOk W env t
  | _ => True

structure ProcOk (W : World) (env : List Val) (p : Proc) : Prop where
  data : ∀ e ∈ p.data, Right env e
  tasks : ∀ t ∈ p.tasks, TaskOk W env t
  methods : ∀ t ∈ p.methods, TaskOk W env t
  outbox : ∀ m ∈ p.outbox, MsgOk W env m.2

structure SysOk (W : World) (env : List Val) (s : Sys) : Prop where
  next : env.length = s.next
  held : ∀ i ∈ s.held, i < s.next
  stored : ∀ e ∈ s.stored, Right env e
  worker : ∀ w, ProcOk W env (s.worker w)
  net : ∀ m ∈ s.net, MsgOk W env m.2.2
  got : ∀ e ∈ s.got, Right env e

variable {W : World} {env : List Val}

theorem right_lt {e : Nat × Val} (h : Right env e) : e.1 < env.length := (List.getElem?_eq_some_iff.1 h).1

theorem right_grow {e : Nat × Val} (ext : List Val) (h : Right env e) : Right (env ++ ext) e := by
  unfold Right at *
  rw [List.getElem?_append_left (right_lt h)]; exact h

theorem argVal_grow (ext : List Val) {args : List Arg} (h : ∀ i ∈ refs args, i < env.length) :
    args.map (argVal (env ++ ext)) = args.map (argVal env) := by
  apply List.map_congr_left
  intro a ha
  cases a with
  | val v => rfl
  | ref i =>
    have := h i (List.mem_filterMap.2 ⟨_, ha, rfl⟩)
    simp only [argVal, List.getD_eq_getElem?_getD]
    rw [List.getElem?_append_left this]

theorem length_directly (W : World) (vs : List Val) (n : Nat) : (directly W vs n).length = n := by
  rw [← results_eq]; exact length_results _ _ _

theorem task_grow {t : Task} (ext : List Val) (h : TaskOk W env t) : TaskOk W (env ++ ext) t := by
  refine ⟨fun i hi => ?_, fun k o ho => ?_⟩
  · have := h.1 i hi
    rw [List.length_append]; omega
  · rw [argVal_grow ext h.1, ← h.2 k o ho]
    have hk : k < t.outs.length := (List.getElem?_eq_some_iff.1 ho).1
    have hs : (directly W (t.args.map (argVal env)) t.outs.length)[k]? ≠ none := by
      rw [Ne, List.getElem?_eq_none_iff, length_directly]; omega
    rw [← h.2 k o ho] at hs
    have : o < env.length := by
      apply Classical.byContradiction
      intro hc
      exact hs (List.getElem?_eq_none_iff.2 (by omega))
    rw [List.getElem?_append_left this]

theorem msg_grow {m : Msg} (ext : List Val) (h : MsgOk W env m) : MsgOk W (env ++ ext) m := by
  cases m with
  | data i v => exact right_grow ext h
  | task t => exact task_grow ext h
  | _ => trivial

theorem proc_grow {p : Proc} (ext : List Val) (h : ProcOk W env p) : ProcOk W (env ++ ext) p :=
  ⟨fun e he => right_grow ext (h.data e he), fun t ht => task_grow ext (h.tasks t ht), fun t ht => task_grow ext (h.methods t ht), fun m hm => msg_grow ext (h.outbox m hm)⟩

theorem keep_ok {p : Proc} (h : ProcOk W env p) (i : Nat) : ProcOk W env (p.keep i) := by
  unfold Proc.keep
  split
  · exact h
  · exact ⟨h.data, h.tasks, h.methods, h.outbox⟩

theorem store_ok {p : Proc} (h : ProcOk W env p) {i : Nat} {v : Val} (hv : Right env (i, v)) : ProcOk W env (p.store i v) := by
  unfold Proc.store
  apply keep_ok
  refine ⟨?_, h.tasks, h.methods, h.outbox⟩
  intro e he
  rcases List.mem_cons.1 he with rfl | he
  · exact hv
  · exact h.data e he

theorem push_ok {p : Proc} (h : ProcOk W env p) (i dst : Nat) : ProcOk W env (p.push i dst) := by
  unfold Proc.push
  split
  · exact h
  · rename_i v hv
    split
    · exact h
    · refine ⟨h.data, h.tasks, h.methods, ?_⟩
      intro m hm
      rcases List.mem_append.1 hm with hm | hm
      · exact h.outbox m hm
      · rw [List.mem_singleton.1 hm]; exact h.data _ (lookup_some hv)

theorem answer_ok {p : Proc} (h : ProcOk W env p) (i : Nat) : ProcOk W env (p.answer i) := by
  unfold Proc.answer
  have : ∀ (l : List (Nat × Nat)) (q : Proc), ProcOk W env q → ProcOk W env (l.foldl (fun p a => p.push a.1 a.2) q) := by
    intro l
    induction l with
    | nil => intro q hq; exact hq
    | cons a l ih => intro q hq; exact ih _ (push_ok hq _ _)
  exact this _ _ ⟨h.data, h.tasks, h.methods, h.outbox⟩

theorem answers_ok (l : List Nat) : ∀ {p : Proc}, ProcOk W env p → ProcOk W env (l.foldl Proc.answer p) := by
  induction l with
  | nil => intro p h; exact h
  | cons a l ih => intro p h; exact ih (answer_ok h a)

theorem stores_ok (l : List (Nat × Val)) : ∀ {p : Proc}, ProcOk W env p → (∀ e ∈ l, Right env e) →
    ProcOk W env (l.foldl (fun p e => p.store e.1 e.2) p) := by
  induction l with
  | nil => intro p h _; exact h
  | cons a l ih => intro p h hl; exact ih (store_ok h (hl a List.mem_cons_self)) (fun e he => hl e (List.mem_cons_of_mem _ he))

theorem execute_ok {p : Proc} (h : ProcOk W env p) {t : Task} (ht : TaskOk W env t) :
    ProcOk W env (p.execute W t (t.args.map (argVal env))) := by
  unfold Proc.execute
  have hl : ∀ e ∈ t.outs.zip (results W (t.args.map (argVal env)) t.outs.length), Right env e := by
    intro e he
    obtain ⟨k, hk, hke⟩ := List.getElem_of_mem he
    have e1 := List.getElem?_eq_some_iff.2 ⟨hk, hke⟩
    rw [List.getElem?_zip_eq_some] at e1
    unfold Right
    rw [ht.2 k e.1 e1.1, ← results_eq]
    exact e1.2
  have := answers_ok t.outs (stores_ok _ h hl)
  exact ⟨this.data, this.tasks, this.methods, this.outbox⟩

theorem resolve_argVal {p : Proc} (h : ProcOk W env p) (a : Arg) : argVal env (p.resolve a) = argVal env a := by
  cases a with
  | val v => rfl
  | ref i =>
    simp only [Proc.resolve]
    cases hl : p.data.lookup i with
    | none => rfl
    | some v =>
      have := h.data _ (lookup_some hl)
      simp only [argVal, List.getD_eq_getElem?_getD]
      rw [show env[i]? = some v from this]; rfl

theorem vals_of {args : List Arg} (h : refs args = []) : vals args = args.map (argVal env) := by
  induction args with
  | nil => rfl
  | cons a args ih =>
    cases a with
    | ref i => simp [refs] at h
    | val v =>
      have := ih (by simpa [refs] using h)
      simp only [vals, List.filterMap_cons, List.map_cons, argVal] at this ⊢
      rw [this]

theorem request_ok {p : Proc} (h : ProcOk W env p) (me i : Nat) : ProcOk W env (p.request me i) := by
  unfold Proc.request
  split
  · exact h
  · split
    · exact h
    · refine ⟨h.data, h.tasks, h.methods, ?_⟩
      intro m hm
      rcases List.mem_append.1 hm with hm | hm
      · exact h.outbox m hm
      · rw [List.mem_singleton.1 hm]; trivial

theorem requests_ok (me : Nat) (l : List Nat) : ∀ {p : Proc}, ProcOk W env p → ProcOk W env (l.foldl (Proc.request me) p) := by
  induction l with
  | nil => intro p h; exact h
  | cons a l ih => intro p h; exact ih (request_ok h me a)

theorem attempt_ok {p : Proc} (h : ProcOk W env p) (me : Nat) {t : Task} (ht : TaskOk W env t) :
    ProcOk W env (p.attempt W me t).1 ∧ ∀ t', (p.attempt W me t).2 = some t' → TaskOk W env t' := by
  unfold Proc.attempt
  have hm : (t.args.map p.resolve).map (argVal env) = t.args.map (argVal env) := by
    rw [List.map_map]
    exact List.map_congr_left fun a _ => resolve_argVal h a
  dsimp only
  split
  · rename_i hr
    refine ⟨?_, by intro t' e; cases e⟩
    rw [vals_of (env := env) hr, hm]
    exact execute_ok h ht
  · split
    · exact ⟨⟨h.data, h.tasks, h.methods, h.outbox⟩, by intro t' e; cases e⟩
    · refine ⟨requests_ok _ _ h, ?_⟩
      intro t' e
      simp only [Option.some.injEq] at e
      subst e
      refine ⟨?_, ?_⟩
      · intro i hi
        rw [refs_resolve] at hi
        exact ht.1 i (List.mem_filter.1 hi).1
      · intro k o ho
        show _ = (directly W ((t.args.map p.resolve).map (argVal env)) t.outs.length)[k]?
        rw [hm]; exact ht.2 k o ho

theorem pass_ok (me : Nat) (ts : List Task) : ∀ {p : Proc}, ProcOk W env p → (∀ t ∈ ts, TaskOk W env t) →
    ProcOk W env (Proc.pass W me ts p).1 ∧ ∀ t ∈ (Proc.pass W me ts p).2, TaskOk W env t := by
  induction ts with
  | nil => intro p h _; exact ⟨h, by intro t ht; cases ht⟩
  | cons t ts ih =>
    intro p h hts
    simp only [Proc.pass]
    have ha := attempt_ok h me (hts t List.mem_cons_self)
    have hi := ih ha.1 (fun u hu => hts u (List.mem_cons_of_mem _ hu))
    refine ⟨hi.1, ?_⟩
    intro u hu
    rcases List.mem_append.1 hu with hu | hu
    · exact ha.2 u (Option.mem_toList.1 hu)
    · exact hi.2 u hu

theorem checkTasks_ok {p : Proc} (h : ProcOk W env p) (me : Nat) : ProcOk W env (p.checkTasks W me) := by
  have := pass_ok me p.tasks h h.tasks
  exact ⟨this.1.data, this.2, this.1.methods, this.1.outbox⟩

theorem checkMethods_ok {p : Proc} (h : ProcOk W env p) (me : Nat) : ProcOk W env (p.checkMethods W me) := by
  have := pass_ok me p.methods h h.methods
  exact ⟨this.1.data, this.1.tasks, this.2, this.1.outbox⟩

theorem receive_ok {p : Proc} (h : ProcOk W env p) (me : Nat) {m : Msg} (hm : MsgOk W env m) : ProcOk W env (p.receive W me m) := by
  cases m with
  | data i v =>
    have hs := store_ok h hm
    have hq : ProcOk W env { p.store i v with asked := p.asked.filter (fun j => j ≠ i) } := ⟨hs.data, hs.tasks, hs.methods, hs.outbox⟩
    exact checkMethods_ok (checkTasks_ok hq me) me
  | owner i r =>
    have hq : ProcOk W env { p with owners := (i, r) :: p.owners.filter (fun e => e.1 ≠ i) } := ⟨h.data, h.tasks, h.methods, h.outbox⟩
    exact keep_ok hq i
  | task t =>
    simp only [Proc.receive]
    have ha := attempt_ok h me hm
    cases hr : (p.attempt W me t).2 with
    | none =>
      cases t.method
      · exact checkTasks_ok ha.1 me
      · exact checkMethods_ok ha.1 me
    | some t' =>
      have ht := ha.2 t' hr
      cases t.method
      · refine ⟨ha.1.data, ?_, ha.1.methods, ha.1.outbox⟩
        intro u hu
        rcases List.mem_append.1 hu with hu | hu
        · exact ha.1.tasks u hu
        · rw [List.mem_singleton.1 hu]; exact ht
      · refine ⟨ha.1.data, ha.1.tasks, ?_, ha.1.outbox⟩
        intro u hu
        rcases List.mem_append.1 hu with hu | hu
        · exact ha.1.methods u hu
        · rw [List.mem_singleton.1 hu]; exact ht
  | ask i src =>
    simp only [Proc.receive]
    split
    · exact push_ok h i src
    · split
      · exact h
      · exact ⟨h.data, h.tasks, h.methods, h.outbox⟩
  | clean ids => exact ⟨h.data, h.tasks, h.methods, h.outbox⟩

theorem next_mem {src d : Nat} : ∀ {l : List (Nat × Nat × Msg)} {m : Msg} {rest : List (Nat × Nat × Msg)}, nextMsg src d l = some (m, rest) →
    (∃ x ∈ l, x.2.2 = m) ∧ ∀ x ∈ rest, x ∈ l := by
  intro l
  induction l with
  | nil => intro m rest h; cases h
  | cons a l ih =>
    intro m rest h
    simp only [nextMsg] at h
    split at h
    · simp only [Option.some.injEq, Prod.mk.injEq] at h
      obtain ⟨rfl, rfl⟩ := h
      exact ⟨⟨a, List.mem_cons_self, rfl⟩, fun x hx => List.mem_cons_of_mem _ hx⟩
    · obtain ⟨r, hr, he⟩ := Option.map_eq_some_iff.1 h
      simp only [Prod.mk.injEq] at he
      obtain ⟨rfl, rfl⟩ := he
      obtain ⟨⟨x, hx, e⟩, hrest⟩ := ih (m := r.1) (rest := r.2) hr
      refine ⟨⟨x, List.mem_cons_of_mem _ hx, e⟩, ?_⟩
      intro y hy
      rcases List.mem_cons.1 hy with rfl | hy
      · exact List.mem_cons_self
      · exact List.mem_cons_of_mem _ (hrest y hy)

theorem sysPush_ok {s : Sys} (h : SysOk W env s) (d i : Nat) : SysOk W env (s.push d i) := by
  unfold Sys.push
  split
  · rename_i v hv
    split
    · exact h
    · refine ⟨h.next, h.held, h.stored, h.worker, ?_, h.got⟩
      intro m hm
      rcases List.mem_append.1 hm with hm | hm
      · exact h.net m hm
      · rw [List.mem_singleton.1 hm]; exact h.stored _ (lookup_some hv)
  · split
    · refine ⟨h.next, h.held, h.stored, h.worker, ?_, h.got⟩
      intro m hm
      rcases List.mem_append.1 hm with hm | hm
      · exact h.net m hm
      · rw [List.mem_singleton.1 hm]; trivial
    · exact h

theorem sysPushes_ok (d : Nat) (l : List Nat) : ∀ {s : Sys}, SysOk W env s → SysOk W env (l.foldl (Sys.push d) s) := by
  induction l with
  | nil => intro s h; exact h
  | cons a l ih => intro s h; exact ih (sysPush_ok h d a)

/-- The values after one more call. -/
def grow (W : World) (env : List Val) (op : Op) : List Val := values W env [op]

theorem step_ok {s s' : Sys} (h : SysOk W env s) {op : Op} (hs : s.step W op = some s') : SysOk W (grow W env op) s' := by
  cases op with
  | put v =>
    simp only [Sys.step] at hs
    split at hs
    · cases hs
    · cases hs
      refine ⟨by simp [grow, values, h.next], ?_, ?_, fun w => proc_grow _ (h.worker w), fun m hm => msg_grow _ (h.net m hm), fun e he => right_grow _ (h.got e he)⟩
      · intro i hi
        rcases List.mem_cons.1 hi with rfl | hi
        · simp
        · have := h.held i hi; show i < s.next + 1; omega
      · intro e he
        rcases List.mem_cons.1 he with rfl | he
        · simp [Right, grow, values, ← h.next]
        · exact right_grow _ (h.stored e he)
  | drop i =>
    simp only [Sys.step] at hs
    split at hs
    · cases hs
    · cases hs
      exact ⟨h.next, fun j hj => h.held j (List.mem_of_mem_erase hj), fun e he => h.stored e (List.mem_filter.1 he).1, h.worker, h.net, h.got⟩
  | submit args n d m =>
    simp only [Sys.step] at hs
    split at hs
    · cases hs
    · rename_i hc
      simp only [not_or, List.any_eq_true, decide_eq_true_eq, not_exists, not_and, Classical.not_not] at hc
      have hlt : ∀ i ∈ refs args, i < env.length := by
        intro i hi
        rw [h.next]; exact h.held i (hc.2.2 i hi)
      have hg : grow W env (.submit args n d m) = env ++ directly W (args.map (argVal env)) n := rfl
      have hin : SysOk W (grow W env (.submit args n d m)) { s with next := s.next + n, held := List.range' s.next n ++ s.held, owner := fun i => if i ∈ List.range' s.next n then some d else s.owner i } := by
        rw [hg]
        refine ⟨by simp [length_directly, h.next], ?_, fun e he => right_grow _ (h.stored e he), fun w => proc_grow _ (h.worker w), fun m hm => msg_grow _ (h.net m hm), fun e he => right_grow _ (h.got e he)⟩
        intro i hi
        show i < s.next + n
        rcases List.mem_append.1 hi with hi | hi
        · have := List.mem_range'_1.1 hi; omega
        · have := h.held i hi; omega
      have hp := sysPushes_ok d (refs args) hin
      cases hs
      refine ⟨hp.next, hp.held, hp.stored, hp.worker, ?_, hp.got⟩
      intro x hx
      rcases List.mem_append.1 hx with hx | hx
      · exact hp.net x hx
      · rw [List.mem_singleton.1 hx]
        show TaskOk W _ ⟨args, List.range' s.next n, m⟩
        rw [hg]
        refine ⟨fun i hi => by have := hlt i hi; rw [List.length_append]; omega, ?_⟩
        intro k o ho
        rw [argVal_grow _ hlt]
        simp only [List.length_range']
        have hk : k < n := by simpa using (List.getElem?_eq_some_iff.1 ho).1
        rw [List.getElem?_range' hk] at ho
        simp only [Option.some.injEq] at ho
        rw [← ho, List.getElem?_append_right (by rw [h.next]; omega), h.next]
        congr 1
        omega
  | get ids =>
    simp only [Sys.step] at hs
    split at hs
    · cases hs
    · cases hs
      refine ⟨h.next, h.held, h.stored, h.worker, ?_, ?_⟩
      · intro m hm
        rcases List.mem_append.1 hm with hm | hm
        · exact h.net m hm
        · obtain ⟨i, -, rfl⟩ := List.mem_map.1 hm; trivial
      · intro e he
        rcases List.mem_append.1 he with he | he
        · exact h.got e he
        · obtain ⟨i, -, hi⟩ := List.mem_filterMap.1 he
          obtain ⟨v, hv, rfl⟩ := Option.map_eq_some_iff.1 hi
          exact h.stored _ (lookup_some hv)
  | deliver src d =>
    simp only [Sys.step] at hs
    split at hs
    · cases hs
    · rename_i m rest hn
      obtain ⟨⟨x, hx, rfl⟩, hrest⟩ := next_mem hn
      have hm := h.net x hx
      split at hs
      · split at hs
        · rename_i i v e
          rw [e] at hm
          cases hs
          refine ⟨h.next, h.held, ?_, h.worker, fun y hy => h.net y (hrest y hy), ?_⟩
          · intro e' he
            dsimp only at he
            split at he
            · rcases List.mem_cons.1 he with rfl | he
              · exact hm
              · exact h.stored e' he
            · exact h.stored e' he
          · intro e' he
            rcases List.mem_append.1 he with he | he
            · exact h.got e' he
            · rw [List.mem_singleton.1 he]; exact hm
        · cases hs
      · split at hs
        · cases hs
        · cases hs
          have hp := receive_ok (h.worker d) d hm
          refine ⟨h.next, h.held, h.stored, ?_, ?_, h.got⟩
          · intro w
            simp only [Sys.setWorker]
            split
            · exact ⟨fun e he => hp.data e (List.mem_filter.1 he).1, hp.tasks, hp.methods, by intro m hm; cases hm⟩
            · exact h.worker w
          · intro y hy
            simp only [Sys.setWorker] at hy
            rcases List.mem_append.1 hy with hy | hy
            · exact h.net y (hrest y hy)
            · obtain ⟨z, hz, rfl⟩ := List.mem_map.1 hy
              exact hp.outbox z hz
  | report =>
    simp only [Sys.step] at hs
    split at hs
    · cases hs
    · cases hs
      exact ⟨h.next, h.held, h.stored, h.worker, h.net, h.got⟩
  | cleanup =>
    simp only [Sys.step] at hs
    split at hs
    · cases hs
    · cases hs
      refine ⟨h.next, h.held, h.stored, h.worker, ?_, h.got⟩
      intro m hm
      rcases List.mem_append.1 hm with hm | hm
      · exact h.net m hm
      · obtain ⟨i, -, rfl⟩ := List.mem_map.1 hm; trivial

theorem values_cons (W : World) (env : List Val) (op : Op) (ops : List Op) : values W env (op :: ops) = values W (grow W env op) ops := by
  cases op <;> rfl

theorem run_ok (ops : List Op) : ∀ {env : List Val} {s s' : Sys}, SysOk W env s → s.run W ops = some s' → SysOk W (values W env ops) s' := by
  induction ops with
  | nil =>
    intro env s s' h hr
    simp only [Sys.run, Option.some.injEq] at hr
    subst hr
    exact h
  | cons op ops ih =>
    intro env s s' h hr
    obtain ⟨s1, h1, h2⟩ := Option.bind_eq_some_iff.1 hr
    rw [values_cons]
    exact ih (step_ok h h1) h2

theorem init_ok (W : World) (ws : List Nat) : SysOk W [] (Sys.init ws) := by
  refine ⟨rfl, by simp [Sys.init], by simp [Sys.init], ?_, by simp [Sys.init], by simp [Sys.init]⟩
  intro w
  exact ⟨by simp [Sys.init, Proc.init], by simp [Sys.init, Proc.init], by simp [Sys.init, Proc.init], by simp [Sys.init, Proc.init]⟩

end Verif.Valued
