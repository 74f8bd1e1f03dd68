import Verif.Spec.Lifetime

/-! Lemmas about one worker of `Verif.Model.Lifetime`. -/
namespace Verif.Lifetime

theorem keep_strong (p : Proc) (i : Nat) : i ∈ (p.keep i).strong := by
  unfold Proc.keep; split <;> simp_all

theorem keep_sub (p : Proc) (i j : Nat) (h : j ∈ p.strong) : j ∈ (p.keep i).strong := by
  unfold Proc.keep; split <;> simp_all

theorem keep_rest (p : Proc) (i : Nat) : ∃ l, p.keep i = { p with strong := l } := by
  unfold Proc.keep; split
  · exact ⟨p.strong, rfl⟩
  · exact ⟨_, rfl⟩

theorem push_rest (p : Proc) (i d : Nat) : ∃ a b, p.push i d = { p with outbox := a, sent := b } := by
  unfold Proc.push; split
  · exact ⟨p.outbox, p.sent, rfl⟩
  · exact ⟨_, _, rfl⟩

theorem pushes_rest (l : List (Nat × Nat)) (p : Proc) :
    ∃ a b, l.foldl (fun p a => p.push a.1 a.2) p = { p with outbox := a, sent := b } := by
  induction l generalizing p with
  | nil => exact ⟨p.outbox, p.sent, rfl⟩
  | cons x l ih =>
    obtain ⟨a, b, e⟩ := push_rest p x.1 x.2
    obtain ⟨a', b', e'⟩ := ih (p.push x.1 x.2)
    refine ⟨a', b', ?_⟩
    rw [List.foldl_cons, e', e]

theorem answer_rest (p : Proc) (i : Nat) : ∃ a b c, p.answer i = { p with outbox := a, sent := b, asks := c } := by
  obtain ⟨a, b, e⟩ := pushes_rest (p.asks.filter (fun a => a.1 = i)) { p with asks := p.asks.filter (fun a => a.1 ≠ i) }
  exact ⟨a, b, _, e⟩

theorem answers_rest (l : List Nat) (p : Proc) :
    ∃ a b c, l.foldl Proc.answer p = { p with outbox := a, sent := b, asks := c } := by
  induction l generalizing p with
  | nil => exact ⟨p.outbox, p.sent, p.asks, rfl⟩
  | cons x l ih =>
    obtain ⟨a, b, c, e⟩ := answer_rest p x
    obtain ⟨a', b', c', e'⟩ := ih (p.answer x)
    refine ⟨a', b', c', ?_⟩
    rw [List.foldl_cons, e', e]

theorem store_rest (p : Proc) (i : Nat) : ∃ l, p.store i = { p with data := i :: p.data, strong := l } ∧ i ∈ l ∧ ∀ j ∈ p.strong, j ∈ l := by
  obtain ⟨l, e⟩ := keep_rest { p with data := i :: p.data } i
  refine ⟨l, e, ?_, ?_⟩
  · have := keep_strong { p with data := i :: p.data } i
    rw [e] at this; exact this
  · intro j hj
    have := keep_sub { p with data := i :: p.data } i j hj
    rw [e] at this; exact this

theorem stores_rest (l : List Nat) (p : Proc) :
    ∃ a b, l.foldl Proc.store p = { p with data := a, strong := b } ∧ (∀ j ∈ p.data, j ∈ a) ∧ (∀ j ∈ p.strong, j ∈ b) ∧
      (∀ j ∈ l, j ∈ a ∧ j ∈ b) ∧ (∀ j ∈ a, j ∈ p.data ∨ j ∈ l) ∧ (∀ j ∈ b, j ∈ p.strong ∨ j ∈ l) := by
  induction l generalizing p with
  | nil => exact ⟨p.data, p.strong, rfl, fun _ h => h, fun _ h => h, by simp, fun _ h => Or.inl h, fun _ h => Or.inl h⟩
  | cons x l ih =>
    obtain ⟨b, e, h1, h2⟩ := store_rest p x
    obtain ⟨a', b', e', g1, g2, g3, g4, g5⟩ := ih (p.store x)
    have hb : ∀ j ∈ b, j ∈ p.strong ∨ j = x := by
      intro j hj
      have hj' : j ∈ (p.store x).strong := by rw [e]; exact hj
      unfold Proc.store Proc.keep at hj'
      split at hj'
      · exact Or.inl hj'
      · rcases List.mem_cons.1 hj' with h | h
        · exact Or.inr h
        · exact Or.inl h
    rw [e] at g1 g2 g4 g5
    refine ⟨a', b', by rw [List.foldl_cons, e', e], ?_, ?_, ?_, ?_, ?_⟩
    · intro j hj; exact g1 j (List.mem_cons_of_mem _ hj)
    · intro j hj; exact g2 j (h2 j hj)
    · intro j hj
      rcases List.mem_cons.1 hj with h | h
      · subst h; exact ⟨g1 _ List.mem_cons_self, g2 _ h1⟩
      · exact g3 j h
    · intro j hj
      rcases g4 j hj with h | h
      · rcases List.mem_cons.1 h with h | h
        · exact Or.inr (h ▸ List.mem_cons_self)
        · exact Or.inl h
      · exact Or.inr (List.mem_cons_of_mem _ h)
    · intro j hj
      rcases g5 j hj with h | h
      · rcases hb j h with h | h
        · exact Or.inl h
        · exact Or.inr (h ▸ List.mem_cons_self)
      · exact Or.inr (List.mem_cons_of_mem _ h)

/-- What trying a list of tasks does to a worker. -/
structure Work (p p' : Proc) (L L' : List Task) : Prop where
  data : ∀ i ∈ p.data, i ∈ p'.data
  strong : ∀ i ∈ p.strong, i ∈ p'.strong
  new : ∀ i ∈ p'.data, i ∈ p.data ∨ ∃ t ∈ L, i ∈ t.outs
  newStrong : ∀ i ∈ p'.strong, i ∈ p.strong ∨ ∃ t ∈ L, i ∈ t.outs
  owners : p'.owners = p.owners
  tasks : p'.tasks = p.tasks
  methods : p'.methods = p.methods
  left : ∀ t' ∈ L', ∃ t ∈ L, t'.outs = t.outs ∧ t'.method = t.method ∧ ∀ i ∈ t'.args, i ∈ t.args
  ran : ∀ t ∈ L, (∀ i ∈ t.outs, i ∈ p'.data ∧ i ∈ p'.strong) ∨ ∃ t' ∈ L', t'.outs = t.outs
  count : p'.done + L'.length = p.done + L.length
  crashed : p'.crashed = p.crashed

theorem Work.refl (p : Proc) : Work p p [] [] :=
  ⟨fun _ h => h, fun _ h => h, fun _ h => Or.inl h, fun _ h => Or.inl h, rfl, rfl, rfl, by simp, by simp, rfl, rfl⟩

theorem Work.trans {p p1 p2 : Proc} {L1 L2 M1 M2 : List Task} (a : Work p p1 L1 M1) (b : Work p1 p2 L2 M2) :
    Work p p2 (L1 ++ L2) (M1 ++ M2) where
  data i h := b.data i (a.data i h)
  strong i h := b.strong i (a.strong i h)
  new i h := by
    rcases b.new i h with h | ⟨t, ht, hi⟩
    · rcases a.new i h with h | ⟨t, ht, hi⟩
      · exact Or.inl h
      · exact Or.inr ⟨t, List.mem_append_left _ ht, hi⟩
    · exact Or.inr ⟨t, List.mem_append_right _ ht, hi⟩
  newStrong i h := by
    rcases b.newStrong i h with h | ⟨t, ht, hi⟩
    · rcases a.newStrong i h with h | ⟨t, ht, hi⟩
      · exact Or.inl h
      · exact Or.inr ⟨t, List.mem_append_left _ ht, hi⟩
    · exact Or.inr ⟨t, List.mem_append_right _ ht, hi⟩
  owners := b.owners.trans a.owners
  tasks := b.tasks.trans a.tasks
  methods := b.methods.trans a.methods
  left t' h := by
    rcases List.mem_append.1 h with h | h
    · obtain ⟨t, ht, e⟩ := a.left t' h
      exact ⟨t, List.mem_append_left _ ht, e⟩
    · obtain ⟨t, ht, e⟩ := b.left t' h
      exact ⟨t, List.mem_append_right _ ht, e⟩
  ran t h := by
    rcases List.mem_append.1 h with h | h
    · rcases a.ran t h with g | ⟨t', ht, e⟩
      · exact Or.inl fun i hi => ⟨b.data i (g i hi).1, b.strong i (g i hi).2⟩
      · exact Or.inr ⟨t', List.mem_append_left _ ht, e⟩
    · rcases b.ran t h with g | ⟨t', ht, e⟩
      · exact Or.inl g
      · exact Or.inr ⟨t', List.mem_append_right _ ht, e⟩
  count := by
    have := a.count; have := b.count
    simp only [List.length_append]; omega
  crashed := b.crashed.trans a.crashed

theorem request_rest (me : Nat) (p : Proc) (i : Nat) : ∃ a b, p.request me i = { p with asked := a, outbox := b } := by
  unfold Proc.request
  split
  · exact ⟨p.asked, p.outbox, rfl⟩
  · split
    · exact ⟨p.asked, p.outbox, rfl⟩
    · exact ⟨_, _, rfl⟩

theorem requests_rest (me : Nat) (l : List Nat) (p : Proc) :
    ∃ a b, l.foldl (Proc.request me) p = { p with asked := a, outbox := b } := by
  induction l generalizing p with
  | nil => exact ⟨p.asked, p.outbox, rfl⟩
  | cons x l ih =>
    obtain ⟨a, b, e⟩ := request_rest me p x
    obtain ⟨a', b', e'⟩ := ih (p.request me x)
    exact ⟨a', b', by rw [List.foldl_cons, e', e]⟩

/-- Every reference is there or its owner is known. -/
def Ready (p : Proc) (l : List Nat) : Prop := ∀ i ∈ l, i ∈ p.data ∨ p.owners.lookup i ≠ none

theorem execute_rest (p : Proc) (t : Task) :
    ∃ a b c d e, p.execute t = { p with data := a, strong := b, outbox := c, sent := d, asks := e, done := p.done + 1 } ∧
      (∀ j ∈ p.data, j ∈ a) ∧ (∀ j ∈ p.strong, j ∈ b) ∧
      (∀ j ∈ t.outs, j ∈ a ∧ j ∈ b) ∧ (∀ j ∈ a, j ∈ p.data ∨ j ∈ t.outs) ∧ (∀ j ∈ b, j ∈ p.strong ∨ j ∈ t.outs) := by
  obtain ⟨a, b, e1, h1, h2, h3, h4, h5⟩ := stores_rest t.outs p
  obtain ⟨c, d, e, e2⟩ := answers_rest t.outs { p with data := a, strong := b }
  refine ⟨a, b, c, d, e, ?_, h1, h2, h3, h4, h5⟩
  unfold Proc.execute
  simp only [e1, e2]

theorem attempt_work (me : Nat) (p : Proc) (t : Task) (h : Ready p t.args) :
    Work p (p.attempt me t).1 [t] (p.attempt me t).2.toList := by
  unfold Proc.attempt
  simp only
  split
  · obtain ⟨a, b, c, d, e, e1, h1, h2, h3, h4, h5⟩ := execute_rest p t
    rw [e1]
    refine ⟨h1, h2, ?_, ?_, rfl, rfl, rfl, by simp, ?_, by simp, rfl⟩
    · intro i hi
      rcases h4 i hi with h | h
      · exact Or.inl h
      · exact Or.inr ⟨t, by simp, h⟩
    · intro i hi
      rcases h5 i hi with h | h
      · exact Or.inl h
      · exact Or.inr ⟨t, by simp, h⟩
    · intro t' ht'
      rw [List.mem_singleton.1 ht']
      exact Or.inl h3
  · split
    · rename_i _ hx
      exfalso
      simp only [List.any_eq_true, List.mem_filter, decide_eq_true_eq, Option.isNone_iff_eq_none] at hx
      obtain ⟨i, ⟨hi, hd⟩, ho⟩ := hx
      rcases h i hi with g | g
      · exact hd g
      · exact g ho
    · obtain ⟨a, b, e⟩ := requests_rest me (t.args.filter (fun i => i ∉ p.data)) p
      rw [e]
      refine ⟨fun _ h => h, fun _ h => h, fun _ h => Or.inl h, fun _ h => Or.inl h, rfl, rfl, rfl, ?_, ?_, by simp, rfl⟩
      · intro t' ht'
        simp only [Option.toList, List.mem_singleton] at ht'
        subst ht'
        exact ⟨t, by simp, rfl, rfl, fun i hi => (List.mem_filter.1 hi).1⟩
      · intro t' ht'
        rw [List.mem_singleton.1 ht']
        exact Or.inr ⟨_, List.mem_singleton.2 rfl, rfl⟩

theorem pass_work (me : Nat) (L : List Task) (p : Proc) (h : ∀ t ∈ L, Ready p t.args) :
    Work p (Proc.pass me L p).1 L (Proc.pass me L p).2 := by
  induction L generalizing p with
  | nil => exact Work.refl p
  | cons t L ih =>
    have a := attempt_work me p t (h t List.mem_cons_self)
    have b := ih (p.attempt me t).1 (by
      intro t' ht' i hi
      rcases h t' (List.mem_cons_of_mem _ ht') i hi with g | g
      · exact Or.inl (a.data i g)
      · exact Or.inr (by rw [a.owners]; exact g))
    exact a.trans b

/-- What receiving a message does to a worker without actors. -/
structure Recv (p p' : Proc) (m : Msg) (L : List Task) : Prop where
  data : ∀ i ∈ p.data, i ∈ p'.data
  strong : ∀ i ∈ p.strong, (∀ ids, m = .clean ids → i ∉ ids) → i ∈ p'.strong
  got : ∀ i, m = .data i → i ∈ p'.data ∧ i ∈ p'.strong
  told : ∀ i r, m = .owner i r → p'.owners.lookup i ≠ none ∧ i ∈ p'.strong
  new : ∀ i ∈ p'.data, i ∈ p.data ∨ m = .data i ∨ ∃ t ∈ L, i ∈ t.outs
  newStrong : ∀ i ∈ p'.strong, i ∈ p.strong ∨ m = .data i ∨ (∃ r, m = .owner i r) ∨ ∃ t ∈ L, i ∈ t.outs
  cleaned : ∀ ids, m = .clean ids → ∀ i ∈ p'.strong, i ∉ ids
  owners : ∀ i, p.owners.lookup i ≠ none → p'.owners.lookup i ≠ none
  newOwners : ∀ e ∈ p'.owners, e ∈ p.owners ∨ m = .owner e.1 e.2
  methods : p'.methods = []
  left : ∀ t' ∈ p'.tasks, ∃ t ∈ L, t'.outs = t.outs ∧ t'.method = t.method ∧ ∀ i ∈ t'.args, i ∈ t.args
  ran : ∀ t ∈ L, (∀ i ∈ t.outs, i ∈ p'.data ∧ i ∈ p'.strong) ∨ ∃ t' ∈ p'.tasks, t'.outs = t.outs
  count : p'.done + p'.tasks.length = p.done + L.length
  crashed : p'.crashed = p.crashed

/-- The tasks a worker knows after receiving a message. -/
def todo (p : Proc) : Msg → List Task
  | .task t => t :: p.tasks
  | _ => p.tasks

theorem checkMethods_none (me : Nat) (p : Proc) (h : p.methods = []) : p.checkMethods me = p := by
  unfold Proc.checkMethods
  rw [h]
  simp only [Proc.pass]
  rw [← h]

theorem lookup_filter_ne (l : List (Nat × Nat)) (i j : Nat) (h : j ≠ i) :
    (l.filter (fun e => e.1 ≠ i)).lookup j = l.lookup j := by
  induction l with
  | nil => rfl
  | cons e l ih =>
    obtain ⟨a, b⟩ := e
    by_cases hx : a = i
    · subst hx
      have : (j == a) = false := by simp [h]
      simp only [List.lookup, this]
      rw [← ih]; simp
    · have : List.filter (fun e : Nat × Nat => e.1 ≠ i) ((a, b) :: l) = (a, b) :: l.filter (fun e => e.1 ≠ i) := by
        rw [List.filter_cons]; simp [hx]
      rw [this]
      simp only [List.lookup, ih]

theorem receive_recv (me : Nat) (p : Proc) (m : Msg) (hm : p.methods = []) (ht : ∀ t, m = .task t → t.method = false)
    (hr : ∀ t ∈ todo p m, Ready p t.args) : Recv p (p.receive me m) m (todo p m) := by
  cases m with
  | data i =>
    obtain ⟨l, e, h1, h2⟩ := store_rest p i
    have hl : ∀ j ∈ l, j ∈ p.strong ∨ j = i := by
      intro j hj
      have hj' : j ∈ (p.store i).strong := by rw [e]; exact hj
      unfold Proc.store Proc.keep at hj'
      split at hj'
      · exact Or.inl hj'
      · rcases List.mem_cons.1 hj' with h | h
        · exact Or.inr h
        · exact Or.inl h
    have w := pass_work me p.tasks { p with data := i :: p.data, strong := l, asked := p.asked.filter (fun j => j ≠ i) } (by
      intro t ht j hj
      rcases hr t ht j hj with g | g
      · exact Or.inl (List.mem_cons_of_mem _ g)
      · exact Or.inr g)
    have hrec : p.receive me (.data i) =
        { (Proc.pass me p.tasks { p with data := i :: p.data, strong := l, asked := p.asked.filter (fun j => j ≠ i) }).1 with
          tasks := (Proc.pass me p.tasks { p with data := i :: p.data, strong := l, asked := p.asked.filter (fun j => j ≠ i) }).2 } := by
      simp only [Proc.receive, e]
      rw [checkMethods_none]
      · rfl
      · exact w.methods.trans hm
    rw [hrec]
    refine ⟨fun j h => w.data j (List.mem_cons_of_mem _ h), fun j h _ => w.strong j (h2 j h), ?_, by simp, ?_, ?_, by simp, ?_, ?_,
      w.methods.trans hm, w.left, w.ran, w.count, w.crashed⟩
    · rintro j hj
      cases hj
      exact ⟨w.data _ List.mem_cons_self, w.strong _ h1⟩
    · intro j hj
      rcases w.new j hj with h | h
      · rcases List.mem_cons.1 h with h | h
        · exact Or.inr (Or.inl (h ▸ rfl))
        · exact Or.inl h
      · exact Or.inr (Or.inr h)
    · intro j hj
      rcases w.newStrong j hj with h | h
      · rcases hl j h with h | h
        · exact Or.inl h
        · exact Or.inr (Or.inl (h ▸ rfl))
      · exact Or.inr (Or.inr (Or.inr h))
    · intro j h
      show (Proc.pass me p.tasks _).1.owners.lookup j ≠ none
      rw [w.owners]; exact h
    · intro x hx
      exact Or.inl (by have : x ∈ (Proc.pass me p.tasks _).1.owners := hx; rw [w.owners] at this; exact this)
  | owner i r =>
    have hrec : p.receive me (.owner i r) = { p with owners := (i, r) :: p.owners.filter (fun e => e.1 ≠ i) }.keep i := rfl
    obtain ⟨l, e⟩ := keep_rest { p with owners := (i, r) :: p.owners.filter (fun e => e.1 ≠ i) } i
    have h1 := keep_strong { p with owners := (i, r) :: p.owners.filter (fun e => e.1 ≠ i) } i
    have h2 := keep_sub { p with owners := (i, r) :: p.owners.filter (fun e => e.1 ≠ i) } i
    have hl : ∀ j ∈ l, j ∈ p.strong ∨ j = i := by
      intro j hj
      have hj' : j ∈ ({ p with owners := (i, r) :: p.owners.filter (fun e => e.1 ≠ i) }.keep i).strong := by rw [e]; exact hj
      unfold Proc.keep at hj'
      split at hj'
      · exact Or.inl hj'
      · rcases List.mem_cons.1 hj' with h | h
        · exact Or.inr h
        · exact Or.inl h
    rw [e] at h1 h2
    rw [hrec, e]
    refine ⟨fun _ h => h, fun j h _ => h2 j h, by simp, ?_, fun _ h => Or.inl h, ?_, by simp, ?_, ?_, hm,
      fun t ht => ⟨t, ht, rfl, rfl, fun _ h => h⟩, fun t ht => Or.inr ⟨t, ht, rfl⟩, rfl, rfl⟩
    · rintro j s hj
      cases hj
      exact ⟨by simp [List.lookup], h1⟩
    · intro j hj
      rcases hl j hj with h | h
      · exact Or.inl h
      · exact Or.inr (Or.inr (Or.inl ⟨r, by rw [h]⟩))
    · intro j hj
      by_cases hx : j = i
      · subst hx; simp [List.lookup]
      · have : (j == i) = false := by simp [hx]
        simp only [List.lookup, this]
        rw [lookup_filter_ne _ _ _ hx]; exact hj
    · intro x hx
      rcases List.mem_cons.1 hx with h | h
      · right; rw [h]
      · exact Or.inl (List.mem_filter.1 h).1
  | task t =>
    have hf := ht t rfl
    have a := attempt_work me p t (hr t List.mem_cons_self)
    simp only [Proc.receive, hf]
    cases hres : (p.attempt me t).2 with
    | some t' =>
      rw [hres] at a
      simp only
      refine ⟨a.data, fun j h _ => a.strong j h, by simp, by simp, ?_, ?_, by simp, ?_, ?_, a.methods.trans hm, ?_, ?_, ?_, a.crashed⟩
      · intro i hi
        rcases a.new i hi with h | ⟨u, hu, hx⟩
        · exact Or.inl h
        · rw [List.mem_singleton.1 hu] at hx
          exact Or.inr (Or.inr ⟨t, List.mem_cons_self, hx⟩)
      · intro i hi
        rcases a.newStrong i hi with h | ⟨u, hu, hx⟩
        · exact Or.inl h
        · rw [List.mem_singleton.1 hu] at hx
          exact Or.inr (Or.inr (Or.inr ⟨t, List.mem_cons_self, hx⟩))
      · intro j h
        show (p.attempt me t).1.owners.lookup j ≠ none
        rw [a.owners]; exact h
      · intro x hx
        have : x ∈ (p.attempt me t).1.owners := hx
        rw [a.owners] at this; exact Or.inl this
      · intro u hu
        rcases List.mem_append.1 hu with h | h
        · rw [a.tasks] at h
          exact ⟨u, List.mem_cons_of_mem _ h, rfl, rfl, fun _ h => h⟩
        · obtain ⟨v, hv, e⟩ := a.left u (by simpa using h)
          rw [List.mem_singleton.1 hv] at e
          exact ⟨t, List.mem_cons_self, e⟩
      · intro u hu
        rcases List.mem_cons.1 hu with h | h
        · subst h
          rcases a.ran u (by simp) with g | ⟨v, hv, e⟩
          · exact Or.inl g
          · exact Or.inr ⟨v, List.mem_append_right _ (by simpa using hv), e⟩
        · right
          exact ⟨u, List.mem_append_left _ (by rw [a.tasks]; exact h), rfl⟩
      · have := a.count
        simp only [Option.toList, List.length_cons, List.length_nil] at this
        simp only [List.length_append, todo, List.length_cons, List.length_nil]
        rw [a.tasks]; omega
    | none =>
      rw [hres] at a
      simp only
      have b := pass_work me (p.attempt me t).1.tasks (p.attempt me t).1 (by
        rw [a.tasks]
        intro u hu i hi
        rcases hr u (List.mem_cons_of_mem _ hu) i hi with g | g
        · exact Or.inl (a.data i g)
        · exact Or.inr (by rw [a.owners]; exact g))
      have w := a.trans b
      simp only [Option.toList, List.nil_append] at w
      have hL : [t] ++ (p.attempt me t).1.tasks = todo p (.task t) := by rw [a.tasks]; rfl
      rw [hL] at w
      unfold Proc.checkTasks
      refine ⟨w.data, fun j h _ => w.strong j h, by simp, by simp, ?_, ?_, by simp, ?_, ?_, w.methods.trans hm, w.left, w.ran, w.count, w.crashed⟩
      · intro i hi
        rcases w.new i hi with h | h
        · exact Or.inl h
        · exact Or.inr (Or.inr h)
      · intro i hi
        rcases w.newStrong i hi with h | h
        · exact Or.inl h
        · exact Or.inr (Or.inr (Or.inr h))
      · intro j h
        show (Proc.pass me _ (p.attempt me t).1).1.owners.lookup j ≠ none
        rw [w.owners]; exact h
      · intro x hx
        have : x ∈ (Proc.pass me (p.attempt me t).1.tasks (p.attempt me t).1).1.owners := hx
        rw [w.owners] at this; exact Or.inl this
  | ask i src =>
    have key : ∃ a b c, p.receive me (.ask i src) = { p with outbox := a, sent := b, asks := c } := by
      simp only [Proc.receive]
      split
      · obtain ⟨a, b, e⟩ := push_rest p i src
        exact ⟨a, b, p.asks, e⟩
      · split
        · exact ⟨p.outbox, p.sent, p.asks, rfl⟩
        · exact ⟨p.outbox, p.sent, _, rfl⟩
    obtain ⟨a, b, c, e⟩ := key
    rw [e]
    exact ⟨fun _ h => h, fun _ h _ => h, by simp, by simp, fun _ h => Or.inl h, fun _ h => Or.inl h, by simp, fun _ h => h, fun _ h => Or.inl h,
      hm, fun t ht => ⟨t, ht, rfl, rfl, fun _ h => h⟩, fun t ht => Or.inr ⟨t, ht, rfl⟩, rfl, rfl⟩
  | clean ids =>
    refine ⟨fun _ h => h, ?_, by simp, by simp, fun _ h => Or.inl h, ?_, ?_, fun _ h => h, fun _ h => Or.inl h, hm,
      fun t ht => ⟨t, ht, rfl, rfl, fun _ h => h⟩, fun t ht => Or.inr ⟨t, ht, rfl⟩, rfl, rfl⟩
    · intro i hi hc
      exact List.mem_filter.2 ⟨hi, by simpa using hc ids rfl⟩
    · intro i hi
      exact Or.inl (List.mem_filter.1 hi).1
    · intro l hl i hi
      cases hl
      simpa using (List.mem_filter.1 hi).2

end Verif.Lifetime
