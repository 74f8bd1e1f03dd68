import Verif.Lemmas.LifetimeLive

/-! Deliveries come to an end. -/
namespace Verif.Lifetime

/-- What a message can still cause. -/
def weight : Msg → Nat
  | .ask _ _ => 3
  | _ => 1

/-- The worker may still ask for the reference. -/
def fresh (p : Proc) (j : Nat) : Bool := decide (j ∉ p.asked ∧ ¬ (j ∈ p.strong ∧ j ∈ p.data))

/-- What a worker can still cause, if it asks only for references in `U`. -/
def cost (U : List Nat) (p : Proc) : Nat :=
  4 * U.countP (fresh p) + 2 * p.asks.length + (p.outbox.map fun x => weight x.2).sum

theorem fresh_iff (p : Proc) (j : Nat) : fresh p j = true ↔ j ∉ p.asked ∧ ¬ (j ∈ p.strong ∧ j ∈ p.data) := by
  unfold fresh
  exact decide_eq_true_iff

theorem count_mono (U : List Nat) (f g : Nat → Bool) (h : ∀ j ∈ U, f j = true → g j = true) : U.countP f ≤ U.countP g :=
  List.countP_mono_left h

theorem count_drop (U : List Nat) (f g : Nat → Bool) (i : Nat) (hi : i ∈ U) (h : ∀ j ∈ U, f j = true → g j = true) (h1 : f i = false) (h2 : g i = true) :
    U.countP f + 1 ≤ U.countP g := by
  induction U with
  | nil => cases hi
  | cons a U ih =>
    rw [List.countP_cons, List.countP_cons]
    have hm := count_mono U f g (fun j hj => h j (List.mem_cons_of_mem _ hj))
    have ha := h a List.mem_cons_self
    by_cases hia : i = a
    · subst hia
      rw [h1, h2]
      simp; omega
    · have hiU : i ∈ U := by
        rcases List.mem_cons.1 hi with e | e
        · exact absurd e hia
        · exact e
      have := ih hiU (fun j hj => h j (List.mem_cons_of_mem _ hj))
      cases hf : f a
      · simp; omega
      · rw [ha hf]; simp; omega

theorem push_cost (U : List Nat) (p : Proc) (i d : Nat) : cost U (p.push i d) ≤ cost U p + 1 := by
  unfold Proc.push
  split
  · omega
  · simp only [cost, List.map_append, List.sum_append, List.map_cons, List.map_nil, List.sum_cons, List.sum_nil, weight]
    have : (fresh { p with outbox := p.outbox ++ [(d, Msg.data i)], sent := (i, d) :: p.sent }) = fresh p := rfl
    rw [this]; omega

theorem pushes_cost (U : List Nat) (l : List (Nat × Nat)) (p : Proc) : cost U (l.foldl (fun p a => p.push a.1 a.2) p) ≤ cost U p + l.length := by
  induction l generalizing p with
  | nil => simp
  | cons a l ih =>
    rw [List.foldl_cons, List.length_cons]
    have h1 := ih (p.push a.1 a.2)
    have h2 := push_cost U p a.1 a.2
    omega

theorem filter_split (l : List (Nat × Nat)) (i : Nat) : (l.filter (fun a => a.1 = i)).length + (l.filter (fun a => a.1 ≠ i)).length = l.length := by
  induction l with
  | nil => rfl
  | cons a l ih =>
    by_cases h : a.1 = i
    · simp [h] at ih ⊢; omega
    · simp [h] at ih ⊢; omega

theorem answer_cost (U : List Nat) (p : Proc) (i : Nat) : cost U (p.answer i) ≤ cost U p := by
  unfold Proc.answer
  have h1 := pushes_cost U (p.asks.filter (fun a => a.1 = i)) { p with asks := p.asks.filter (fun a => a.1 ≠ i) }
  have h2 := filter_split p.asks i
  have h3 : cost U { p with asks := p.asks.filter (fun a => a.1 ≠ i) } + 2 * (p.asks.filter (fun a => a.1 = i)).length = cost U p := by
    simp only [cost]
    have : (fresh { p with asks := p.asks.filter (fun a => a.1 ≠ i) }) = fresh p := rfl
    rw [this]; omega
  omega

theorem answers_cost (U : List Nat) (l : List Nat) (p : Proc) : cost U (l.foldl Proc.answer p) ≤ cost U p := by
  induction l generalizing p with
  | nil => exact Nat.le_refl _
  | cons a l ih => exact Nat.le_trans (ih _) (answer_cost U p a)

/-- Having more never makes a worker ask for more. -/
theorem more_cost (U : List Nat) (p : Proc) (a b k : List Nat) (h : ∀ j ∈ U, j ∈ p.asked → j ∈ k ∨ (j ∈ b ∧ j ∈ a))
    (h1 : ∀ j ∈ U, j ∈ p.strong → j ∈ p.data → j ∈ b ∧ j ∈ a) : cost U { p with data := a, strong := b, asked := k } ≤ cost U p := by
  simp only [cost]
  have := count_mono U (fresh { p with data := a, strong := b, asked := k }) (fresh p) (by
    intro j hj hf
    rw [fresh_iff] at hf ⊢
    refine ⟨fun g => ?_, fun g => hf.2 (h1 j hj g.1 g.2)⟩
    rcases h j hj g with g | g
    · exact hf.1 g
    · exact hf.2 g)
  omega

theorem execute_cost (U : List Nat) (p : Proc) (t : Task) : cost U (p.execute t) ≤ cost U p := by
  unfold Proc.execute
  obtain ⟨a, b, e, h1, h2, -⟩ := stores_rest t.outs p
  simp only [e]
  have g1 := answers_cost U t.outs { p with data := a, strong := b }
  have g2 := more_cost U p a b p.asked (fun j _ h => Or.inl h) (fun j _ h h' => ⟨h2 j h, h1 j h'⟩)
  exact Nat.le_trans g1 g2

theorem request_cost (U : List Nat) (me : Nat) (p : Proc) (i : Nat) (hi : i ∈ U) (hd : i ∉ p.data) : cost U (p.request me i) ≤ cost U p := by
  unfold Proc.request
  split
  · exact Nat.le_refl _
  · rename_i o ho
    split
    · exact Nat.le_refl _
    · rename_i hc
      have hc : i ∉ p.asked := fun h => hc (Or.inl h)
      simp only [cost, List.map_append, List.sum_append, List.map_cons, List.map_nil, List.sum_cons, List.sum_nil, weight]
      have := count_drop U (fresh { p with asked := i :: p.asked, outbox := p.outbox ++ [(o, Msg.ask i me)] }) (fresh p) i hi (by
        intro j _ hf
        rw [fresh_iff] at hf ⊢
        exact ⟨fun g => hf.1 (List.mem_cons_of_mem _ g), hf.2⟩) (by simp [fresh]) (by
        rw [fresh_iff]; exact ⟨hc, fun g => hd g.2⟩)
      omega

theorem requests_cost (U : List Nat) (me : Nat) (l : List Nat) (p : Proc) (hi : ∀ i ∈ l, i ∈ U ∧ i ∉ p.data) : cost U (l.foldl (Proc.request me) p) ≤ cost U p := by
  induction l generalizing p with
  | nil => exact Nat.le_refl _
  | cons a l ih =>
    rw [List.foldl_cons]
    obtain ⟨x, y, e⟩ := request_rest me p a
    have hda : (p.request me a).data = p.data := by rw [e]
    have h1 := ih (p.request me a) (fun i h => by rw [hda]; exact hi i (List.mem_cons_of_mem _ h))
    have h2 := request_cost U me p a (hi a List.mem_cons_self).1 (hi a List.mem_cons_self).2
    omega

theorem attempt_cost (U : List Nat) (me : Nat) (p : Proc) (t : Task) (h : ∀ i ∈ t.args, i ∈ U) : cost U (p.attempt me t).1 ≤ cost U p := by
  unfold Proc.attempt
  simp only
  split
  · exact execute_cost U p t
  · split
    · exact Nat.le_refl _
    · refine requests_cost U me _ p ?_
      intro i hi
      obtain ⟨h1, h2⟩ := List.mem_filter.1 hi
      exact ⟨h i h1, by simpa using h2⟩

theorem pass_cost (U : List Nat) (me : Nat) (L : List Task) (p : Proc) (h : ∀ t ∈ L, ∀ i ∈ t.args, i ∈ U) : cost U (Proc.pass me L p).1 ≤ cost U p := by
  induction L generalizing p with
  | nil => exact Nat.le_refl _
  | cons t L ih =>
    exact Nat.le_trans (ih _ (fun t' h' => h t' (List.mem_cons_of_mem _ h'))) (attempt_cost U me p t (h t List.mem_cons_self))

theorem cost_tasks (U : List Nat) (p : Proc) (L : List Task) : cost U { p with tasks := L } = cost U p := rfl

theorem receive_cost (U : List Nat) (me : Nat) (p : Proc) (m : Msg) (hm : p.methods = []) (ht : ∀ t, m = .task t → t.method = false)
    (hr : ∀ t ∈ todo p m, Ready p t.args) (ha : ∀ t ∈ todo p m, ∀ i ∈ t.args, i ∈ U) (hc : ∀ ids, m = .clean ids → ∀ i ∈ ids, i ∉ U) :
    cost U (p.receive me m) + 1 ≤ cost U p + weight m := by
  cases m with
  | data i =>
    obtain ⟨l, e, h1, h2⟩ := store_rest p i
    have hr' : ∀ t ∈ p.tasks, Ready { p with data := i :: p.data, strong := l, asked := p.asked.filter (fun j => j ≠ i) } t.args := by
      intro t ht j hj
      rcases hr t ht j hj with g | g
      · exact Or.inl (List.mem_cons_of_mem _ g)
      · exact Or.inr g
    have w := pass_work me p.tasks { p with data := i :: p.data, strong := l, asked := p.asked.filter (fun j => j ≠ i) } hr'
    have hrec : p.receive me (.data i) =
        { (Proc.pass me p.tasks { p with data := i :: p.data, strong := l, asked := p.asked.filter (fun j => j ≠ i) }).1 with
          tasks := (Proc.pass me p.tasks { p with data := i :: p.data, strong := l, asked := p.asked.filter (fun j => j ≠ i) }).2 } := by
      simp only [Proc.receive, e]
      rw [checkMethods_none]
      · rfl
      · exact w.methods.trans hm
    rw [hrec, cost_tasks]
    have g1 := pass_cost U me p.tasks { p with data := i :: p.data, strong := l, asked := p.asked.filter (fun j => j ≠ i) } ha
    have g2 := more_cost U p (i :: p.data) l (p.asked.filter (fun j => j ≠ i)) (by
      intro j _ hj
      by_cases hji : j = i
      · subst hji; exact Or.inr ⟨h1, List.mem_cons_self⟩
      · exact Or.inl (by simp [hj, hji])) (fun j _ h h' => ⟨h2 j h, List.mem_cons_of_mem _ h'⟩)
    show _ ≤ cost U p + 1
    omega
  | owner i r =>
    show cost U (Proc.keep { p with owners := (i, r) :: p.owners.filter (fun e => e.1 ≠ i) } i) + 1 ≤ cost U p + 1
    obtain ⟨l, e⟩ := keep_rest { p with owners := (i, r) :: p.owners.filter (fun e => e.1 ≠ i) } i
    have h2 := keep_sub { p with owners := (i, r) :: p.owners.filter (fun e => e.1 ≠ i) } i
    rw [e] at h2 ⊢
    have := more_cost U p p.data l p.asked (fun j _ h => Or.inl h) (fun j _ h h' => ⟨h2 j h, h'⟩)
    exact Nat.succ_le_succ this
  | task t =>
    have h0 := ht t rfl
    have h1 := attempt_cost U me p t (ha t List.mem_cons_self)
    show cost U (p.receive me (.task t)) + 1 ≤ cost U p + 1
    unfold Proc.receive
    simp only
    have htasks : (p.attempt me t).1.tasks = p.tasks := by
      have f := attempt_work me p t (hr t List.mem_cons_self)
      exact f.tasks
    split
    · rw [cost_tasks]; omega
    · rename_i e1 e2; rw [h0] at e2; cases e2
    · unfold Proc.checkTasks
      simp only
      rw [cost_tasks, htasks]
      have h2 := pass_cost U me p.tasks (p.attempt me t).1 (fun t' h' => ha t' (List.mem_cons_of_mem _ h'))
      omega
    · rename_i e1 e2; rw [h0] at e2; cases e2
  | ask i src =>
    show cost U (p.receive me (.ask i src)) + 1 ≤ cost U p + 3
    unfold Proc.receive
    simp only
    split
    · have := push_cost U p i src; omega
    · split
      · omega
      · simp only [cost, List.length_cons]
        have : (fresh { p with asks := (i, src) :: p.asks }) = fresh p := rfl
        rw [this]; omega
  | clean ids =>
    show cost U { p with strong := p.strong.filter (fun i => i ∉ ids) } + 1 ≤ cost U p + 1
    have := more_cost U p p.data (p.strong.filter (fun i => i ∉ ids)) p.asked (fun j _ h => Or.inl h) (by
      intro j hj h h'
      refine ⟨?_, h'⟩
      have : ¬ j ∈ ids := fun g => hc ids rfl j g hj
      simp [h, this])
    exact Nat.succ_le_succ this

theorem less_cost (U : List Nat) (p p' : Proc) (h1 : p'.outbox = []) (h2 : p'.asks = p.asks) (h3 : ∀ j, fresh p' j = true → fresh p j = true) :
    cost U p' + (p.outbox.map fun x => weight x.2).sum ≤ cost U p := by
  have := count_mono U (fresh p') (fresh p) (fun j _ => h3 j)
  simp only [cost, h1, h2, List.map_nil, List.sum_nil]
  omega

theorem sweep_cost (U : List Nat) (p : Proc) : cost U { p.sweep with outbox := [], done := 0 } + (p.outbox.map fun x => weight x.2).sum ≤ cost U p := by
  refine less_cost U p _ rfl rfl ?_
  intro j hf
  rw [fresh_iff] at hf ⊢
  exact ⟨hf.1, fun g => hf.2 ⟨g.1, sweep_data p j g.1 g.2⟩⟩

/-! ### Messages go between processes that exist -/

structure Closed (s : Sys) : Prop where
  net : ∀ x y m, (x, y, m) ∈ s.net → (x = 0 ∨ x ∈ s.ws) ∧ (y = 0 ∨ y ∈ s.ws)
  asks : ∀ o i w, (i, w) ∈ (s.worker o).asks → w = 0 ∨ w ∈ s.ws

theorem closed_init (ws : List Nat) : Closed (Sys.init ws) := ⟨by simp [Sys.init], by simp [Sys.init, Proc.init]⟩

theorem closed_cleanAll {s : Sys} (hc : Closed s) : Closed s.cleanAll := by
  refine ⟨?_, hc.asks⟩
  intro x y m hx
  rcases List.mem_append.1 hx with h | h
  · exact hc.net x y m h
  · obtain ⟨w, hw, e⟩ := List.mem_map.1 h
    cases e
    exact ⟨Or.inl rfl, Or.inr hw⟩

theorem closed_step {s s' : Sys} {op : Op} (hi : Inv s) (hl : Live s) (hc : Closed s) (ho : ∀ args n d, op ≠ .submit args n d true)
    (h : s.step op = some s') : Closed s' := by
  cases op with
  | put =>
    simp only [Sys.step] at h
    split at h
    · cases h
    · cases h; exact ⟨hc.net, hc.asks⟩
  | drop i =>
    simp only [Sys.step] at h
    split at h
    · cases h
    · cases h; exact ⟨hc.net, hc.asks⟩
  | report =>
    simp only [Sys.step] at h
    split at h
    · cases h
    · cases h; exact ⟨hc.net, hc.asks⟩
  | cleanup => exact (cleanup_cleanAll h).1 ▸ closed_cleanAll hc
  | get ids =>
    simp only [Sys.step] at h
    split at h
    · cases h
    · rename_i hcd
      simp only [ne_eq, not_or, Classical.not_not, List.any_eq_true, decide_eq_true_eq, not_exists, not_and] at hcd
      cases h
      refine ⟨?_, hc.asks⟩
      intro x y m hx
      rcases List.mem_append.1 hx with h | h
      · exact hc.net x y m h
      · obtain ⟨i, hi', e⟩ := List.mem_map.1 h
        cases e
        obtain ⟨h1, h2⟩ := List.mem_filter.1 hi'
        obtain ⟨o, ho⟩ := Option.ne_none_iff_exists'.1 ((hi.heldKnown i (hcd.2 i h1)).resolve_left (by simpa using h2))
        rw [ho]
        exact ⟨Or.inl rfl, Or.inr (hi.ownerFresh i o ho).2⟩
  | submit args n d m =>
    cases m with
    | true => exact absurd rfl (ho args n d)
    | false =>
      simp only [Sys.step] at h
      split at h
      · cases h
      · rename_i hcd
        simp only [ne_eq, not_or, Classical.not_not, List.any_eq_true, decide_eq_true_eq, not_exists, not_and] at hcd
        obtain ⟨hwait, hd, hargs⟩ := hcd
        simp only [Bool.false_eq_true, if_false, Option.some.injEq] at h
        obtain ⟨L, sn, e, p1, p2, p3, p4⟩ := pushes_spec d args { s with next := s.next + n, held := List.range' s.next n ++ s.held, owner := fun i => if i ∈ List.range' s.next n then some d else s.owner i }
        rw [e] at h
        subst h
        refine ⟨?_, hc.asks⟩
        intro x y m hx
        rcases List.mem_append.1 hx with h | h
        · rcases List.mem_append.1 h with h | h
          · exact hc.net x y m h
          · obtain ⟨k1, k2, -⟩ := p1 _ h
            exact ⟨Or.inl k1, Or.inr (by have k2 : y = d := k2; exact k2 ▸ hd)⟩
        · have := List.mem_singleton.1 h
          cases this
          exact ⟨Or.inl rfl, Or.inr hd⟩
  | deliver src d =>
    by_cases hd : d = 0
    · subst hd
      simp only [Sys.step] at h
      split at h
      · cases h
      · rename_i m rest hm
        obtain ⟨hmem, hsub, hcase⟩ := takeMsg_mem hm
        obtain ⟨i, rfl⟩ := hl.root _ _ hmem
        simp only [if_true, Option.some.injEq] at h
        subst h
        exact ⟨fun x y m h => hc.net x y m (hsub _ h), hc.asks⟩
    · obtain ⟨m, rest, hm, rfl⟩ := deliver_cases hd h
      clear h
      obtain ⟨hmem, hsub, hcase⟩ := takeMsg_mem hm
      have q := receive_quiet d (s.worker d) m
      have htodo := todo_unf hi hm
      have hmeth : ∀ t, m = .task t → t.method = false := by
        intro t ht
        subst ht
        exact (hi.taskMsg _ _ _ hmem).2.2
      have r2 := receive_recv2 s.owner d (s.worker d) m (hi.idle d).1 hmeth (todo_ready hi hm) (fun t ht j hj => (hi.taskOk d t (htodo t ht)).2 j hj) (hi.ownersTrue d)
      have hob := (hi.idle d).2.2.1
      generalize hp : (s.worker d).receive d m = p at q r2
      have hdw : d ∈ s.ws := (hc.net _ _ _ hmem).2.resolve_left hd
      have hask : ∀ i w, m = .ask i w → w = 0 ∨ w ∈ s.ws := by
        rintro i w rfl
        rw [(hl.askMsg _ _ _ _ hmem).1]
        exact (hc.net _ _ _ hmem).1
      refine ⟨?_, ?_⟩
      · intro x y m' hx
        have hx : (x, y, m') ∈ rest ++ p.outbox.map (fun y => ((d, y.1, y.2) : Nat × Nat × Msg)) := hx
        rcases List.mem_append.1 hx with h | h
        · exact hc.net x y m' (hsub _ h)
        · obtain ⟨z, hz, e⟩ := List.mem_map.1 h
          cases e
          refine ⟨Or.inr hdw, ?_⟩
          obtain ⟨y, m'⟩ := z
          rcases q _ hz with h | ⟨i, h⟩ | ⟨i, j, h⟩
          · rw [hob] at h; cases h
          · have h : m' = .data i := h
            subst h
            have hcnt := r2.count i y
            have hpos : 0 < p.outbox.count (y, Msg.data i) := List.count_pos_iff.2 hz
            rw [hob, List.count_nil] at hcnt
            by_cases hm' : m = .ask i y
            · exact hask i y hm'
            · rw [if_neg hm'] at hcnt
              have : 0 < (s.worker d).asks.count (i, y) := by omega
              exact hc.asks d i y (List.count_pos_iff.1 this)
          · have h : m' = .ask i j := h
            subst h
            rcases r2.reqOwn y i j hz with h | ⟨h1, h2, h3⟩
            · rw [hob] at h; cases h
            · exact Or.inr (hi.ownerFresh _ _ (hi.ownersTrue _ _ h3)).2
      · intro o i w hx
        have hx : (i, w) ∈ (if o = d then { p.sweep with outbox := [], done := 0 } else s.worker o).asks := hx
        split at hx
        · have hx : (i, w) ∈ p.asks := hx
          rcases r2.asks _ hx with h | h
          · exact hc.asks d i w h
          · exact hask i w h
        · exact hc.asks o i w hx

/-! ### Histories of deliveries -/

/-- The references workers may ask for. -/
def open_ (s : Sys) : List Nat := (List.range s.next).filter (fun i => i ∉ s.cleaned)

def total (U : List Nat) (s : Sys) : Nat :=
  (s.ws.map fun w => cost U (s.worker w)).sum + (s.net.map fun x => weight x.2.2).sum + (s.submitted - s.executed)

theorem mem_open (s : Sys) (i : Nat) : i ∈ open_ s ↔ i < s.next ∧ i ∉ s.cleaned := by
  simp [open_]

theorem take_weight {s d : Nat} {net rest : List (Nat × Nat × Msg)} {m : Msg} (h : takeMsg s d net = some (m, rest)) :
    (net.map fun x => weight x.2.2).sum = (rest.map fun x => weight x.2.2).sum + weight m := by
  obtain ⟨pre, post, rfl, rfl, -⟩ := takeMsg_spec h
  simp only [List.map_append, List.map_cons, List.sum_append, List.sum_cons]
  omega

/-- Every delivery brings the end nearer. -/
theorem deliver_total {s s' : Sys} {src d : Nat} (hi : Inv s) (hl : Live s) (hc : Closed s) (h : s.step (.deliver src d) = some s') :
    total (open_ s) s' + 1 ≤ total (open_ s) s ∧ open_ s' = open_ s := by
  by_cases hd : d = 0
  · subst hd
    simp only [Sys.step] at h
    split at h
    · cases h
    · rename_i m rest hm
      obtain ⟨hmem, hsub, hcase⟩ := takeMsg_mem hm
      obtain ⟨i, rfl⟩ := hl.root _ _ hmem
      simp only [if_true, Option.some.injEq] at h
      subst h
      refine ⟨?_, rfl⟩
      have := take_weight hm
      simp only [total, weight] at this ⊢
      rw [this]
      omega
  · obtain ⟨m, rest, hm, rfl⟩ := deliver_cases hd h
    clear h
    obtain ⟨hmem, hsub, hcase⟩ := takeMsg_mem hm
    have htodo := todo_unf hi hm
    have hmeth : ∀ t, m = .task t → t.method = false := by
      intro t ht
      subst ht
      exact (hi.taskMsg _ _ _ hmem).2.2
    refine ⟨?_, rfl⟩
    generalize hU : open_ s = U
    have c1 := receive_cost U d (s.worker d) m (hi.idle d).1 hmeth (todo_ready hi hm) (by
      intro t ht i hx
      rw [← hU, mem_open]
      exact ⟨(hl.args d t (htodo t ht)).1 i hx, (hi.taskOk d t (htodo t ht)).1 i hx⟩) (by
      rintro ids rfl i hx
      rw [← hU, mem_open]
      exact fun g => g.2 ((hi.cleanMsg _ _ _ hmem).2 i hx))
    generalize hp : (s.worker d).receive d m = p at c1
    have c2 := sweep_cost U p
    have c3 := take_weight hm
    have hdw : d ∈ s.ws := (hc.net _ _ _ hmem).2.resolve_left hd
    have hws : ({ s with net := rest }.setWorker d p).ws = s.ws := rfl
    have hsub' : ({ s with net := rest }.setWorker d p).submitted = s.submitted := rfl
    have hexe : ({ s with net := rest }.setWorker d p).executed = s.executed := rfl
    have hnet : ({ s with net := rest }.setWorker d p).net = rest ++ p.outbox.map (fun y => ((d, y.1, y.2) : Nat × Nat × Msg)) := rfl
    have hwd : ({ s with net := rest }.setWorker d p).worker d = { p.sweep with outbox := [], done := 0 } := if_pos rfl
    have hwo : ∀ w, w ≠ d → ({ s with net := rest }.setWorker d p).worker w = s.worker w := fun w hw => if_neg hw
    rw [← hwd] at c2
    clear hwd
    generalize ({ s with net := rest }.setWorker d p) = s1 at hws hsub' hexe hnet c2 hwo ⊢
    have hsum := (sum_update s.ws hi.nodup (fun w => cost U (s.worker w)) (fun w => cost U (s1.worker w)) d (fun w hw => by rw [hwo w hw])).1 hdw
    beta_reduce at hsum
    have e : ((p.outbox.map (fun y => ((d, y.1, y.2) : Nat × Nat × Msg))).map fun x => weight x.2.2) = p.outbox.map fun x => weight x.2 := by
      rw [List.map_map]; rfl
    simp only [total]
    rw [hws, hsub', hexe, hnet, List.map_append, List.sum_append, e]
    omega

theorem report_total {s s' : Sys} (U : List Nat) (hi : Inv s) (h : s.step .report = some s') : total U s' + 1 ≤ total U s ∧ open_ s' = open_ s := by
  simp only [Sys.step] at h
  split at h
  · cases h
  · rename_i hr
    cases h
    refine ⟨?_, rfl⟩
    have := hi.count
    simp only [total]
    omega

theorem arrive_step {s s' : Sys} {op : Op} (ha : Arrives op) (hi : Inv s) (hl : Live s) (hc : Closed s) (h : s.step op = some s') :
    Inv s' ∧ Live s' ∧ Closed s' ∧ total (open_ s') s' + 1 ≤ total (open_ s) s := by
  have h1 : ∀ args n d, op ≠ .submit args n d true := by
    rintro a n d rfl
    rcases ha with ⟨x, y, e⟩ | e <;> cases e
  have h2 : ∀ ids, op = .get ids → ids.Nodup := by
    rintro ids rfl
    rcases ha with ⟨x, y, e⟩ | e <;> cases e
  refine ⟨inv_step hi h1 h, live_step hi hl h1 h2 h, closed_step hi hl hc h1 h, ?_⟩
  rcases ha with ⟨x, y, rfl⟩ | rfl
  · obtain ⟨k1, k2⟩ := deliver_total hi hl hc h
    rw [k2]; exact k1
  · obtain ⟨k1, k2⟩ := report_total (open_ s) hi h
    rw [k2]; exact k1

theorem arrive_run (ds : List Op) {s s' : Sys} (ha : ∀ op ∈ ds, Arrives op) (hi : Inv s) (hl : Live s) (hc : Closed s) (h : s.run ds = some s') :
    Inv s' ∧ Live s' ∧ ds.length + total (open_ s') s' ≤ total (open_ s) s := by
  induction ds generalizing s with
  | nil => cases h; exact ⟨hi, hl, by simp⟩
  | cons op ds ih =>
    simp only [Sys.run, Option.bind_eq_some_iff] at h
    obtain ⟨s1, h1, h2⟩ := h
    obtain ⟨a1, a2, a3, a4⟩ := arrive_step (ha op List.mem_cons_self) hi hl hc h1
    obtain ⟨b1, b2, b3⟩ := ih (fun op h => ha op (List.mem_cons_of_mem _ h)) a1 a2 a3 h2
    refine ⟨b1, b2, ?_⟩
    rw [List.length_cons]
    omega

theorem closed_run (ops : List Op) {s s' : Sys} (hi : Inv s) (hl : Live s) (hc : Closed s) (ho : NoMethods ops) (hg : GetsOnce ops)
    (h : s.run ops = some s') : Inv s' ∧ Live s' ∧ Closed s' := by
  induction ops generalizing s with
  | nil => cases h; exact ⟨hi, hl, hc⟩
  | cons op ops ih =>
    simp only [Sys.run, Option.bind_eq_some_iff] at h
    obtain ⟨s1, h1, h2⟩ := h
    have hm : ∀ args n d, op ≠ .submit args n d true := by
      rintro a n d rfl
      exact ho a n d List.mem_cons_self
    have hm' : ∀ ids, op = .get ids → ids.Nodup := by
      rintro ids rfl
      exact hg ids List.mem_cons_self
    exact ih (inv_step hi hm h1) (live_step hi hl hm hm' h1) (closed_step hi hl hc hm h1) (fun a n d hx => ho a n d (List.mem_cons_of_mem _ hx)) (fun ids hx => hg ids (List.mem_cons_of_mem _ hx)) h2

/-- A message can always be delivered. -/
theorem can_deliver {s : Sys} (hi : Inv s) (hl : Live s) (hn : ∀ src d, s.step (.deliver src d) = none) : s.net = [] := by
  apply List.eq_nil_iff_forall_not_mem.2
  rintro ⟨x, y, m⟩ hx
  have ht : ∃ m' rest, takeMsg x y s.net = some (m', rest) := by
    clear hn hi hl
    generalize s.net = net at hx
    induction net with
    | nil => cases hx
    | cons a net ih =>
      by_cases ha : a.1 = x ∧ a.2.1 = y
      · exact ⟨a.2.2, net, by simp [takeMsg, ha]⟩
      · rcases List.mem_cons.1 hx with h | h
        · subst h; exact absurd ⟨rfl, rfl⟩ ha
        · obtain ⟨m', rest, e⟩ := ih h
          exact ⟨m', a :: rest, by simp [takeMsg, ha, e]⟩
  obtain ⟨m', rest, e⟩ := ht
  have h := hn x y
  simp only [Sys.step, e] at h
  split at h
  · rename_i hy
    subst hy
    obtain ⟨i, rfl⟩ := hl.root _ _ (takeMsg_mem e).1
    cases h
  · rw [(hi.idle y).2.1] at h
    simp at h

/-- Something arrives until nothing is left. -/
theorem arrive_end {s : Sys} (hi : Inv s) (hl : Live s) (hc : Closed s) :
    ∃ ds s', (∀ op ∈ ds, Arrives op) ∧ s.run ds = some s' ∧ ∀ op, Arrives op → s'.step op = none := by
  generalize hn : total (open_ s) s = n
  induction n using Nat.strongRecOn generalizing s with
  | _ n ih =>
    by_cases h : ∀ op, Arrives op → s.step op = none
    · exact ⟨[], s, by simp, rfl, h⟩
    · obtain ⟨op, h⟩ := Classical.not_forall.1 h
      obtain ⟨ha, h⟩ := Classical.not_imp.1 h
      obtain ⟨s1, h1⟩ := Option.ne_none_iff_exists'.1 h
      obtain ⟨a1, a2, a3, a4⟩ := arrive_step ha hi hl hc h1
      obtain ⟨ds, s', b1, b2, b3⟩ := ih _ (by omega) a1 a2 a3 rfl
      refine ⟨op :: ds, s', ?_, ?_, b3⟩
      · intro x hx
        rcases List.mem_cons.1 hx with e | e
        · exact e ▸ ha
        · exact b1 x e
      · simp [Sys.run, h1, b2]

end Verif.Lifetime
