import Verif.Model.PympTree
import Verif.Lemmas.PympPlaces

/-! Lemmas about methods that make and use actors on the multiprocessing backend. -/
namespace Verif.PympTree
open Verif.PympPlaces (Place mark)

/-- The tree of processes: what `PympPlaces` shows, all actors are alive, all pools have `n` workers, and the first actor of an actor's process has its worker. -/
structure Base (n : Nat) (t : PympPlaces.State) : Prop where
  inv : PympPlaces.Inv t
  alive : ∀ (a : Nat) (x : Place), t.actors[a]? = some x → x.alive = true
  size : ∀ (k i : Nat) (b : Bool), mark t k i = some b → i < n
  lt : ∀ (a : Nat) (x : Place), t.actors[a]? = some x → x.worker < n
  first : ∀ (a c : Nat) (x y : Place), t.actors[a]? = some x → t.actors[c]? = some y → y.maker = a + 1 →
    (∀ (d : Nat) (z : Place), d < c → t.actors[d]? = some z → z.maker ≠ a + 1) → y.worker = x.worker

theorem Base.init (n : Nat) : Base n (PympPlaces.State.init n) := by
  refine ⟨PympPlaces.Inv.init n, by simp [PympPlaces.State.init], fun k i b h => ?_, by simp [PympPlaces.State.init], by simp [PympPlaces.State.init]⟩
  cases k with
  | zero =>
    simp only [mark, PympPlaces.State.init, List.getElem?_cons_zero, Option.bind_some] at h
    have := (List.getElem?_eq_some_iff.1 h).1
    simpa using this
  | succ k => simp [mark, PympPlaces.State.init] at h

theorem Base.create {n : Nat} {t t' : PympPlaces.State} {p : Nat} (hb : Base n t) (h : t.step (.create p) = some t') : Base n t' := by
  have hi' := PympPlaces.inv_create hb.inv h
  obtain ⟨hr, rfl | ⟨w, h1, h2, h3, h4, h5, h6, h7⟩⟩ := PympPlaces.step_create hb.inv.len h
  · exact hb
  · have hwn := hb.size _ _ _ h1
    refine ⟨hi', fun a x hx => ?_, fun k i b hm => ?_, fun a x hx => ?_, fun a c x y hx hy hm hf => ?_⟩
    · rw [h3] at hx
      rcases PympPlaces.lookup hx with ⟨hx, -⟩ | ⟨-, rfl⟩
      · exact hb.alive a x hx
      · rfl
    · rw [h7] at hm
      split at hm
      · exact hb.size _ _ _ hm
      · split at hm
        · rename_i hh; rw [hh.2]; exact hwn
        · exact hb.size _ _ _ hm
    · rw [h3] at hx
      rcases PympPlaces.lookup hx with ⟨hx, -⟩ | ⟨-, rfl⟩
      · exact hb.lt a x hx
      · exact hwn
    · rw [h3] at hx hy
      rcases PympPlaces.lookup hy with ⟨hy, hc⟩ | ⟨rfl, rfl⟩
      · rcases PympPlaces.lookup hx with ⟨hx, -⟩ | ⟨rfl, -⟩
        · refine hb.first a c x y hx hy hm fun d z hd hz => hf d z hd ?_
          rw [h3, List.getElem?_append_left (by omega)]; exact hz
        · have := hb.inv.maker c y hy
          omega
      · simp only at hm
        rcases PympPlaces.lookup hx with ⟨hx, hal⟩ | ⟨rfl, -⟩
        · obtain ⟨s', e1, e2⟩ := PympPlaces.create_first hb.inv hx (hb.alive a x hx) (fun y hy hym => by
            obtain ⟨d, hd⟩ := List.mem_iff_getElem?.1 hy
            have hdl := (List.getElem?_eq_some_iff.1 hd).1
            exact absurd hym (hf d y hdl (by rw [h3, List.getElem?_append_left hdl]; exact hd)))
          rw [← hm, h] at e1
          cases e1
          rw [h3] at e2
          simp only [List.append_cancel_left_eq, List.cons.injEq, Place.mk.injEq, and_true] at e2
          exact e2.2
        · have := hb.inv.len
          omega

theorem Base.call {n : Nat} {t t' : PympPlaces.State} {p : Nat} (hb : Base n t) (h : t.step (.call p) = some t') : Base n t' := by
  have hi' := PympPlaces.inv_call hb.inv h
  obtain ⟨h1, -, h3, -⟩ := PympPlaces.step_call h
  exact ⟨hi', by rw [h1]; exact hb.alive, fun k i b hm => hb.size k i b (by rw [← h3]; exact hm), by rw [h1]; exact hb.lt, by rw [h1]; exact hb.first⟩

theorem runs_of {n : Nat} {t : PympPlaces.State} (hb : Base n t) {p : Nat} (hp : p < t.pools.length) : t.runs p = true := by
  cases p with
  | zero => rfl
  | succ a =>
    have hl : a < t.actors.length := by have := hb.inv.len; omega
    simp only [PympPlaces.State.runs, List.getElem?_eq_getElem hl, Option.any_some]
    exact hb.alive a _ (List.getElem?_eq_getElem hl)

/-- What a process can do: it makes an actor, or something is added to the queue of a worker. -/
theorem issue_cases {n : Nat} {s s' : State} {p : Nat} {cmd : Cmd} (hb : Base n s.tree) (h : s.issue p cmd = some s') :
    Base n s'.tree ∧ (∃ l, s'.tree.actors = s.tree.actors ++ l) ∧
    ((cmd = .create ∧ s'.queues = s.queues ∧ s'.done = s.done ∧ s'.next = s.next ∧ ∃ w, s'.tree.actors = s.tree.actors ++ [⟨p, w, true⟩]) ∨
      ∃ t i j, s' = ({ s with tree := t } : State).add i j ∧ t.actors = s.tree.actors ∧
        ((cmd = .call ∧ j = .plain ∧ mark s.tree p i = some false) ∨
          ∃ k body c x, cmd = .method k body ∧ j = .method c body none ∧ (s.kids p)[k]? = some c ∧ s.tree.actors[c]? = some x ∧ x.maker = p ∧ x.worker = i)) := by
  cases cmd with
  | create =>
    simp only [State.issue] at h
    split at h
    · cases h
    · rename_i q hq
      split at h
      · cases h
      · rename_i w q' hg
        cases h
        have hs : s.tree.step (.create p) = some { s.tree with pools := s.tree.pools.set p q' ++ [q], actors := s.tree.actors ++ [⟨p, w, true⟩] } := by
          simp [PympPlaces.State.step, runs_of hb (List.getElem?_eq_some_iff.1 hq).1, hq, hg]
        exact ⟨hb.create hs, ⟨_, rfl⟩, .inl ⟨rfl, rfl, rfl, rfl, w, rfl⟩⟩
  | call =>
    simp only [State.issue] at h
    split at h
    · cases h
    · rename_i q hq
      split at h
      · cases h
      · rename_i w q' hg
        cases h
        have hs : s.tree.step (.call p) = some { s.tree with pools := s.tree.pools.set p q', calls := s.tree.calls ++ [(p, w)] } := by
          simp [PympPlaces.State.step, runs_of hb (List.getElem?_eq_some_iff.1 hq).1, hq, hg]
        refine ⟨hb.call hs, ⟨[], by simp [State.add]⟩, .inr ⟨_, w, .plain, rfl, rfl, .inl ⟨rfl, rfl, ?_⟩⟩⟩
        simp only [mark, hq, Option.bind_some]
        exact (PympNested.submit_free hg).1
  | method k body =>
    simp only [State.issue] at h
    split at h
    · cases h
    · rename_i c hc
      split at h
      · cases h
      · rename_i x hx
        cases h
        have hm : x.maker = p := by
          have := List.mem_of_getElem? hc
          simp only [State.kids, List.mem_filter, hx, Option.any_some] at this
          simpa using this.2
        exact ⟨hb, ⟨[], by simp [State.add]⟩, .inr ⟨s.tree, x.worker, _, rfl, rfl, .inr ⟨k, body, c, x, rfl, rfl, hc, hx, hm, rfl⟩⟩⟩

/-- The numbers of the calls in a queue. -/
def ids (s : State) (w : Nat) : List Nat := (s.queues w).map (·.1)

/-- Every call is in one place. -/
structure Uniq (s : State) : Prop where
  lt : ∀ w, ∀ i ∈ ids s w, i < s.next
  dlt : ∀ i ∈ s.done.map (·.1), i < s.next
  nodup : ∀ w, (ids s w).Nodup
  one : ∀ v w i, i ∈ ids s v → i ∈ ids s w → v = w
  done : ∀ w, ∀ i ∈ ids s w, i ∉ s.done.map (·.1)

theorem ids_add (s : State) (w v : Nat) (j : Job) : ids (s.add w j) v = if v = w then ids s v ++ [s.next] else ids s v := by
  simp only [ids, State.add]; split <;> simp

theorem ids_finish (s : State) (w v id : Nat) (ok : Bool) : ids (s.finish w id ok) v = if v = w then (ids s v).tail else ids s v := by
  simp only [ids, State.finish]; split <;> simp

theorem ids_head (s : State) (w v id : Nat) (j : Job) (hq : (ids s w).head? = some id) : ids (s.head w (id, j)) v = ids s v := by
  simp only [ids, State.head]
  split
  · rename_i e
    subst e
    simp only [ids] at hq
    cases hl : s.queues v with
    | nil => rw [hl] at hq; simp at hq
    | cons z l => rw [hl] at hq; simp at hq; simp [hq]
  · rfl

theorem Uniq.add {s : State} (h : Uniq s) (w : Nat) (j : Job) : Uniq (s.add w j) := by
  have hmem : ∀ v i, i ∈ ids (s.add w j) v → i ∈ ids s v ∨ v = w ∧ i = s.next := by
    intro v i hi
    rw [ids_add] at hi
    split at hi
    · rename_i e
      rcases List.mem_append.1 hi with hi | hi
      · exact .inl hi
      · exact .inr ⟨e, by simpa using hi⟩
    · exact .inl hi
  have hdlt : ∀ i ∈ s.done.map (·.1), i < s.next := h.dlt
  refine ⟨fun v i hi => ?_, fun i hi => ?_, fun v => ?_, fun v v' i hi hi' => ?_, fun v i hi => ?_⟩
  · simp only [State.add]
    rcases hmem v i hi with hi | ⟨-, rfl⟩
    · have := h.lt v i hi; omega
    · omega
  · simp only [State.add] at hi ⊢
    have := h.dlt i hi; omega
  · rw [ids_add]
    split
    · refine List.nodup_append.2 ⟨h.nodup v, by simp, fun a ha b hb => ?_⟩
      have := h.lt v a ha
      simp only [List.mem_singleton] at hb
      omega
    · exact h.nodup v
  · rcases hmem v i hi with hi | ⟨e, he⟩ <;> rcases hmem v' i hi' with hi' | ⟨e', he'⟩
    · exact h.one v v' i hi hi'
    · have := h.lt v _ hi; omega
    · have := h.lt v' _ hi'; omega
    · rw [e, e']
  · simp only [State.add]
    rcases hmem v i hi with hi | ⟨-, rfl⟩
    · exact h.done v i hi
    · exact fun hd => absurd (hdlt _ hd) (Nat.lt_irrefl _)

theorem Uniq.finish {s : State} (h : Uniq s) (w id : Nat) (ok : Bool) (hq : (ids s w).head? = some id) : Uniq (s.finish w id ok) := by
  have hid : id ∈ ids s w := List.mem_of_mem_head? hq
  have hmem : ∀ v i, i ∈ ids (s.finish w id ok) v → i ∈ ids s v ∧ i ≠ id := by
    intro v i hi
    rw [ids_finish] at hi
    split at hi
    · rename_i e
      subst e
      refine ⟨List.mem_of_mem_tail hi, ?_⟩
      rintro rfl
      have hn := h.nodup v
      cases hl : ids s v with
      | nil => rw [hl] at hi; simp at hi
      | cons z l =>
        rw [hl] at hn hi hq
        simp only [List.head?_cons, Option.some.injEq] at hq
        subst hq
        exact (List.nodup_cons.1 hn).1 hi
    · rename_i hv
      refine ⟨hi, ?_⟩
      rintro rfl
      exact hv (h.one v w _ hi hid)
  refine ⟨fun v i hi => h.lt v i (hmem v i hi).1, fun i hi => ?_, fun v => ?_, fun v v' i hi hi' => h.one v v' i (hmem v i hi).1 (hmem v' i hi').1, fun v i hi => ?_⟩
  · simp only [State.finish, List.map_append, List.map_cons, List.map_nil, List.mem_append, List.mem_singleton] at hi ⊢
    rcases hi with hi | rfl
    · exact h.dlt i hi
    · exact h.lt w _ hid
  · rw [ids_finish]
    split
    · exact (h.nodup v).sublist (List.tail_sublist _)
    · exact h.nodup v
  · obtain ⟨h1, h2⟩ := hmem v i hi
    simp only [State.finish, List.map_append, List.map_cons, List.map_nil, List.mem_append, List.mem_singleton, not_or]
    exact ⟨h.done v i h1, h2⟩

theorem Uniq.of_eq {s s' : State} (h : Uniq s) (hi : ∀ w, ids s' w = ids s w) (hd : s'.done = s.done) (hn : s'.next = s.next) : Uniq s' := by
  refine ⟨fun w i hh => ?_, fun i hh => ?_, fun w => ?_, fun v w i h1 h2 => ?_, fun w i hh => ?_⟩
  · rw [hn]; rw [hi] at hh; exact h.lt w i hh
  · rw [hn]; rw [hd] at hh; exact h.dlt i hh
  · rw [hi]; exact h.nodup w
  · rw [hi] at h1 h2; exact h.one v w i h1 h2
  · rw [hd]; rw [hi] at hh; exact h.done w i hh

/-- What is known about a job in queue `w`: a method is on the worker of its actor; a result it waits for is there or comes from this worker or a later one,
and from a later one if `ok`. -/
def Fine (ok : Prop) (s : State) (w : Nat) (it : Nat × Job) : Prop :=
  match it.2 with
  | .plain => True
  | .method a _ o => (∃ x : Place, s.tree.actors[a]? = some x ∧ x.worker = w) ∧
    ∀ j, o = some j → j ≠ it.1 ∧ (j ∈ s.done.map (·.1) ∨ ∃ v, j ∈ ids s v ∧ w ≤ v ∧ (ok → w < v))

/-- The whole invariant. -/
structure Good (ok : Prop) (n : Nat) (s : State) : Prop where
  base : Base n s.tree
  uniq : Uniq s
  rng : ∀ w, s.queues w ≠ [] → w < n
  fine : ∀ w, ∀ it ∈ s.queues w, Fine ok s w it

theorem Good.init (ok : Prop) (n : Nat) : Good ok n (State.init n) :=
  ⟨Base.init n, ⟨by simp [State.init, ids], by simp [State.init], by simp [State.init, ids], by simp [State.init, ids], by simp [State.init, ids]⟩, by simp [State.init],
    by simp [State.init]⟩

theorem Fine.mono {ok : Prop} {s s' : State} {w : Nat} {it : Nat × Job} (h : Fine ok s w it) (ha : ∃ l, s'.tree.actors = s.tree.actors ++ l)
    (hq : ∀ v j, j ∈ ids s v → j ∈ ids s' v ∨ j ∈ s'.done.map (·.1)) (hd : ∀ j, j ∈ s.done.map (·.1) → j ∈ s'.done.map (·.1)) : Fine ok s' w it := by
  obtain ⟨l, hl⟩ := ha
  simp only [Fine] at h ⊢
  split
  · trivial
  · rename_i a b o e
    rw [e] at h
    obtain ⟨⟨x, hx, hw⟩, h2⟩ := h
    refine ⟨⟨x, ?_, hw⟩, fun j hj => ⟨(h2 j hj).1, ?_⟩⟩
    · rw [hl, List.getElem?_append_left (List.getElem?_eq_some_iff.1 hx).1]; exact hx
    · rcases (h2 j hj).2 with h3 | ⟨v, h3, h4⟩
      · exact .inl (hd j h3)
      · rcases hq v j h3 with h5 | h5
        · exact .inr ⟨v, h5, h4⟩
        · exact .inl h5

theorem Good.tree {ok : Prop} {n : Nat} {s : State} (h : Good ok n s) (t : PympPlaces.State) (hb : Base n t) (ha : ∃ l, t.actors = s.tree.actors ++ l) :
    Good ok n { s with tree := t } :=
  ⟨hb, h.uniq.of_eq (fun _ => rfl) rfl rfl, h.rng, fun w it hit => (h.fine w it hit).mono ha (fun _ _ hj => .inl hj) (fun _ hj => hj)⟩

theorem Good.add {ok : Prop} {n : Nat} {s : State} (h : Good ok n s) (w : Nat) (j : Job) (hw : w < n)
    (hj : ∀ a b o, j = .method a b o → o = none ∧ ∃ x : Place, s.tree.actors[a]? = some x ∧ x.worker = w) : Good ok n (s.add w j) := by
  refine ⟨h.base, h.uniq.add w j, fun v hv => ?_, fun v it hit => ?_⟩
  · simp only [State.add] at hv
    split at hv
    · rename_i e; rw [e]; exact hw
    · exact h.rng v hv
  · have hm : ∀ it, Fine ok s v it → Fine ok (s.add w j) v it := fun it hf => hf.mono ⟨[], by simp [State.add]⟩ (fun u k hk => .inl (by
      rw [ids_add]; split
      · exact List.mem_append_left _ hk
      · exact hk)) (fun _ hk => hk)
    simp only [State.add] at hit
    split at hit
    · rename_i e
      subst e
      rcases List.mem_append.1 hit with hit | hit
      · exact hm it (h.fine v it hit)
      · simp only [List.mem_singleton] at hit
        subst hit
        apply hm
        simp only [Fine]
        cases j with
        | plain => trivial
        | method a b o =>
          obtain ⟨rfl, hx⟩ := hj _ _ _ rfl
          exact ⟨hx, fun _ e => by cases e⟩
    · exact hm it (h.fine v it hit)

theorem Good.finish {ok : Prop} {n : Nat} {s : State} (h : Good ok n s) (w id : Nat) (r : Bool) (hq : (ids s w).head? = some id) : Good ok n (s.finish w id r) := by
  refine ⟨h.base, h.uniq.finish w id r hq, fun v hv => h.rng v ?_, fun v it hit => ?_⟩
  · intro e
    apply hv
    simp [State.finish, e]
  · have hit' : it ∈ s.queues v := by
      simp only [State.finish] at hit
      split at hit
      · exact List.mem_of_mem_tail hit
      · exact hit
    refine (h.fine v it hit').mono ⟨[], by simp [State.finish]⟩ (fun u k hk => ?_) (fun k hk => by simp [State.finish] at hk ⊢; exact .inl hk)
    rw [ids_finish]
    split
    · rename_i e
      subst e
      cases hl : ids s u with
      | nil => rw [hl] at hk; cases hk
      | cons z l =>
        rw [hl] at hk hq
        simp only [List.head?_cons, Option.some.injEq] at hq
        subst hq
        rcases List.mem_cons.1 hk with rfl | hk
        · exact .inr (by simp [State.finish])
        · exact .inl hk
    · exact .inl hk

theorem Good.head {ok : Prop} {n : Nat} {s : State} (h : Good ok n s) (w id a : Nat) (b : Body) (o : Option Nat) (hq : (ids s w).head? = some id)
    (ha : ∃ x : Place, s.tree.actors[a]? = some x ∧ x.worker = w)
    (ho : ∀ j, o = some j → j ≠ id ∧ ∃ v, j ∈ ids s v ∧ w ≤ v ∧ (ok → w < v)) : Good ok n (s.head w (id, .method a b o)) := by
  have hids := fun v => ids_head s w v id (.method a b o) hq
  have hne : s.queues w ≠ [] := by intro e; simp [ids, e] at hq
  refine ⟨h.base, h.uniq.of_eq hids rfl rfl, fun v hv => ?_, fun v it hit => ?_⟩
  · simp only [State.head] at hv
    split at hv
    · rename_i e; rw [e]; exact h.rng w hne
    · exact h.rng v hv
  · have hm : ∀ it, Fine ok s v it → Fine ok (s.head w (id, .method a b o)) v it := fun it hf =>
      hf.mono ⟨[], by simp [State.head]⟩ (fun u k hk => .inl (by rw [hids]; exact hk)) (fun _ hk => hk)
    simp only [State.head] at hit
    split at hit
    · rename_i e
      subst e
      rcases List.mem_cons.1 hit with rfl | hit
      · apply hm
        simp only [Fine]
        refine ⟨ha, fun j hj => ⟨(ho j hj).1, .inr (ho j hj).2⟩⟩
      · exact hm it (h.fine v it (List.mem_of_mem_tail hit))
    · exact hm it (h.fine v it hit)

/-- A worker that a process finds free is not before that of its actor, nor is that of an actor that it made. -/
theorem above {n : Nat} {t : PympPlaces.State} (hb : Base n t) {a i : Nat} {x : Place} (hx : t.actors[a]? = some x) (hm : mark t (a + 1) i = some false) :
    x.worker ≤ i := by
  rcases Nat.lt_or_ge i x.worker with h | h
  · rw [hb.inv.below a x i hx (hb.alive a x hx) h] at hm; cases hm
  · exact h

/-- If the process of an actor has made an actor, a worker that it finds free is after that of its actor. -/
theorem above_lt {n : Nat} {t : PympPlaces.State} (hb : Base n t) {a i : Nat} {x : Place} (hx : t.actors[a]? = some x) (hm : mark t (a + 1) i = some false)
    (hk : ∃ (c : Nat) (y : Place), t.actors[c]? = some y ∧ y.maker = a + 1) : x.worker < i := by
  have hle := above hb hx hm
  obtain ⟨c, y, hy, hym⟩ := hk
  obtain ⟨c, hc, hmin⟩ : ∃ c : Nat, (∃ y : Place, t.actors[c]? = some y ∧ y.maker = a + 1) ∧ ∀ d < c, ¬ ∃ y : Place, t.actors[d]? = some y ∧ y.maker = a + 1 := by
    have : ∀ (m c : Nat), c ≤ m → (∃ y : Place, t.actors[c]? = some y ∧ y.maker = a + 1) →
        ∃ c : Nat, (∃ y : Place, t.actors[c]? = some y ∧ y.maker = a + 1) ∧ ∀ d < c, ¬ ∃ y : Place, t.actors[d]? = some y ∧ y.maker = a + 1 := by
      intro m
      induction m with
      | zero => intro c hc h; exact ⟨c, h, fun d hd => by omega⟩
      | succ m ih =>
        intro c hc h
        by_cases hh : ∃ d, d < c ∧ ∃ y : Place, t.actors[d]? = some y ∧ y.maker = a + 1
        · obtain ⟨d, hd, hy⟩ := hh
          exact ih d (by omega) hy
        · exact ⟨c, h, fun d hd hy => hh ⟨d, hd, hy⟩⟩
    exact this c c (Nat.le_refl _) ⟨y, hy, hym⟩
  obtain ⟨y, hy, hym⟩ := hc
  have hw := hb.first a c x y hx hy hym (fun d z hd hz he => hmin d hd ⟨z, hz, he⟩)
  have hh := hb.inv.held c y hy (hb.alive c y hy)
  rw [hym, hw] at hh
  rcases Nat.lt_or_ge x.worker i with h | h
  · exact h
  · have : i = x.worker := by omega
    rw [this, hh] at hm
    cases hm

/-- The `k`-th actor of a process, other than the first, has another worker than the actor of the process. -/
theorem kid_lt {n : Nat} {s : State} (hb : Base n s.tree) {a k c : Nat} {x y : Place} (hx : s.tree.actors[a]? = some x) (hc : (s.kids (a + 1))[k]? = some c)
    (hy : s.tree.actors[c]? = some y) (hk : k ≠ 0) : x.worker < y.worker := by
  have hsorted : (s.kids (a + 1)).Pairwise (· < ·) := List.Pairwise.filter _ List.pairwise_lt_range
  have hmem : ∀ d, d ∈ s.kids (a + 1) ↔ ∃ z : Place, s.tree.actors[d]? = some z ∧ z.maker = a + 1 := by
    intro d
    simp only [State.kids, List.mem_filter, List.mem_range]
    constructor
    · rintro ⟨hd, h⟩
      rw [List.getElem?_eq_getElem hd] at h ⊢
      exact ⟨_, rfl, by simpa using h⟩
    · rintro ⟨z, hz, hm⟩
      exact ⟨(List.getElem?_eq_some_iff.1 hz).1, by rw [hz]; simp [hm]⟩
  obtain ⟨hkl, hkc⟩ := List.getElem?_eq_some_iff.1 hc
  have h0 : 0 < (s.kids (a + 1)).length := by omega
  obtain ⟨z, hz, hzm⟩ := (hmem _).1 (List.getElem_mem h0)
  obtain ⟨y', hy', hym⟩ := (hmem c).1 (List.mem_of_getElem? hc)
  rw [hy] at hy'; cases hy'
  have hlt : (s.kids (a + 1))[0] < c := by rw [← hkc]; exact List.pairwise_iff_getElem.1 hsorted 0 k h0 hkl (by omega)
  have hw := hb.first a _ x z hx hz hzm (fun d u hd hu hum => by
    have hdm := (hmem d).2 ⟨u, hu, hum⟩
    obtain ⟨m, hm, hmd⟩ := List.getElem_of_mem hdm
    rcases Nat.eq_zero_or_pos m with rfl | hp
    · omega
    · have := List.pairwise_iff_getElem.1 hsorted 0 m h0 hm hp
      omega)
  have hne := hb.inv.sib _ c z y hz hy (hb.alive _ _ hz) (hb.alive _ _ hy) (hzm.trans hym.symm) (by omega)
  have hle := hb.inv.kids a c x y hx (hb.alive _ _ hx) hy (hb.alive _ _ hy) hym
  omega

theorem Good.main {ok : Prop} {n : Nat} {s s' : State} (h : Good ok n s) {p : Nat} {cmd : Cmd} (hs : s.issue p cmd = some s') : Good ok n s' := by
  obtain ⟨h1, h2, ⟨-, h4, h5, h6, -⟩ | ⟨t, i, j, rfl, ht, h3⟩⟩ := issue_cases h.base hs
  · have : s' = { s with tree := s'.tree } := by
      cases s'; simp only at h4 h5 h6; simp [h4, h5, h6]
    rw [this]
    exact h.tree _ h1 h2
  · have hg := h.tree t h1 ⟨[], by simp [ht]⟩
    rcases h3 with ⟨-, rfl, hm⟩ | ⟨k, body, c, x, -, rfl, -, hx, -, rfl⟩
    · exact hg.add i _ (h.base.size _ _ _ hm) (fun _ _ _ e => by cases e)
    · exact hg.add _ _ (h.base.lt c x hx) (fun a b o e => by cases e; exact ⟨rfl, x, by simpa [ht] using hx, rfl⟩)

/-- A method makes an actor or a call. If `ok`, it does not get the result of a call on its own worker. -/
theorem Good.does {ok : Prop} {n : Nat} {s : State} (h : Good ok n s) {w id a : Nat} {b : Body} {rest : List (Nat × Job)} (hq : s.queues w = (id, .method a b none) :: rest)
    (cmd : Cmd) (g : Bool) (r : Body) (hgc : g = true → cmd ≠ .create)
    (hok : ok → g = true → match cmd with
      | .method k _ => k ≠ 0
      | _ => ∃ (c : Nat) (y : Place), s.tree.actors[c]? = some y ∧ y.maker = a + 1) : Good ok n (s.does w id a cmd g r) := by
  have hh : (ids s w).head? = some id := by simp [ids, hq]
  obtain ⟨⟨x, hx, hxw⟩, -⟩ := h.fine w _ (by rw [hq]; exact List.mem_cons_self)
  simp only [State.does]
  split
  · exact h.finish w id false hh
  · rename_i s' hs
    have hg := h.main hs
    obtain ⟨h1, ⟨l, hl⟩, h3⟩ := issue_cases h.base hs
    have ha : ∃ x : Place, s'.tree.actors[a]? = some x ∧ x.worker = w :=
      ⟨x, by rw [hl, List.getElem?_append_left (List.getElem?_eq_some_iff.1 hx).1]; exact hx, hxw⟩
    rcases h3 with ⟨rfl, h4, h5, h6, -⟩ | ⟨t, i, j, rfl, ht, h3⟩
    · refine hg.head w id a r _ (by simp only [ids, h4]; exact hh) ha (fun j hj => ?_)
      cases g with
      | false => simp at hj
      | true => exact absurd rfl (hgc rfl)
    · have hh' : (ids (({ s with tree := t } : State).add i j) w).head? = some id := by
        rw [ids_add]
        split
        · simp [ids, hq]
        · exact hh
      refine hg.head w id a r _ hh' ha (fun m hm => ?_)
      cases g with
      | false => simp at hm
      | true =>
        simp only [if_true, Option.some.injEq] at hm
        subst hm
        have hlt := h.uniq.lt w id (List.mem_of_mem_head? hh)
        refine ⟨by omega, i, by rw [ids_add, if_pos rfl]; simp, ?_⟩
        rcases h3 with ⟨rfl, rfl, hm⟩ | ⟨k, body, c, y, rfl, rfl, hc, hy, hym, rfl⟩
        · rw [← hxw]
          exact ⟨above h.base hx hm, fun hk => above_lt h.base hx hm (hok hk rfl)⟩
        · rw [← hxw]
          exact ⟨h.base.inv.kids a c x y hx (h.base.alive _ _ hx) hy (h.base.alive _ _ hy) hym, fun hk => kid_lt h.base hx hc hy (hok hk rfl)⟩

/-- Everything that the proofs need to know about a step of a worker. -/
theorem work_cases {s s' : State} {w : Nat} (h : s.step (.work w) = some s') : ∃ id job rest, s.queues w = (id, job) :: rest ∧
    ((∃ r, s' = s.finish w id r) ∨
      (∃ a b j, job = .method a b (some j) ∧ j ∈ s.done.map (·.1) ∧ s' = s.head w (id, .method a b none)) ∨
      (∃ a r, job = .method a (.create r) none ∧ s' = s.does w id a .create false r) ∨
      (∃ a g r, job = .method a (.call g r) none ∧ s' = s.does w id a .call g r) ∨
      (∃ a k b g r, job = .method a (.method k b g r) none ∧ s' = s.does w id a (.method k b) g r)) := by
  simp only [State.step] at h
  split at h
  · cases h
  · rename_i id rest hq; cases h; exact ⟨_, _, _, hq, .inl ⟨_, rfl⟩⟩
  · rename_i id a b j rest hq
    split at h
    · cases h
    · rename_i hl; cases h
      refine ⟨_, _, _, hq, .inr (.inl ⟨a, b, j, rfl, ?_, rfl⟩)⟩
      obtain ⟨l1, l2, hl, -⟩ := List.lookup_eq_some_iff.1 hl
      rw [hl]; simp
    · cases h; exact ⟨_, _, _, hq, .inl ⟨_, rfl⟩⟩
  · rename_i hq; cases h; exact ⟨_, _, _, hq, .inl ⟨_, rfl⟩⟩
  · rename_i hq; cases h; exact ⟨_, _, _, hq, .inr (.inr (.inl ⟨_, _, rfl, rfl⟩))⟩
  · rename_i hq; cases h; exact ⟨_, _, _, hq, .inr (.inr (.inr (.inl ⟨_, _, _, rfl, rfl⟩)))⟩
  · rename_i hq; cases h; exact ⟨_, _, _, hq, .inr (.inr (.inr (.inr ⟨_, _, _, _, _, rfl, rfl⟩)))⟩

/-- A worker that cannot go on waits for a result. -/
theorem work_none {s : State} {w : Nat} (h : s.step (.work w) = none) (hq : s.queues w ≠ []) :
    ∃ id a b j rest, s.queues w = (id, .method a b (some j)) :: rest ∧ j ∉ s.done.map (·.1) := by
  simp only [State.step] at h
  split at h
  · rename_i e; exact absurd e hq
  · cases h
  · rename_i id a b j rest e
    split at h
    · rename_i hl
      refine ⟨id, a, b, j, rest, e, fun hm => ?_⟩
      obtain ⟨x, hx, rfl⟩ := List.mem_map.1 hm
      have := List.lookup_eq_none_iff.1 hl x hx
      simp at this
    · cases h
    · cases h
  all_goals cases h

theorem step_good {n : Nat} {s s' : State} {act : Act} (h : Good False n s) (hs : s.step act = some s') : Good False n s' := by
  cases act with
  | main cmd =>
    simp only [State.step, Option.some.injEq] at hs
    subst hs
    cases hi : s.issue 0 cmd with
    | none => exact h
    | some t => exact h.main hi
  | work w =>
    obtain ⟨id, job, rest, hq, hc⟩ := work_cases hs
    have hh : (ids s w).head? = some id := by simp [ids, hq]
    rcases hc with ⟨r, rfl⟩ | ⟨a, b, j, rfl, -, rfl⟩ | ⟨a, r, rfl, rfl⟩ | ⟨a, g, r, rfl, rfl⟩ | ⟨a, k, b, g, r, rfl, rfl⟩
    · exact h.finish w id r hh
    · have hf := h.fine w (id, .method a b (some j)) (by rw [hq]; exact List.mem_cons_self)
      exact h.head w id a b none hh hf.1 (fun _ e => by cases e)
    · exact h.does hq _ _ _ (fun e => by cases e) (fun e => e.elim)
    · exact h.does hq _ _ _ (fun _ => by simp) (fun e => e.elim)
    · exact h.does hq _ _ _ (fun _ => by simp) (fun e => e.elim)

theorem run_good {n : Nat} (as : List Act) : ∀ {s s' : State}, Good False n s → s.run as = some s' → Good False n s' := by
  induction as with
  | nil => intro s s' hg h; cases h; exact hg
  | cons a as ih =>
    intro s s' hg h
    simp only [State.run, Option.bind_eq_some_iff] at h
    obtain ⟨u, hu, h⟩ := h
    exact ih (step_good hg hu) h

/-- The last worker with something to do, if nothing can go on, waits for a call in its own queue; it waits for nothing if `ok`. -/
theorem stuck {ok : Prop} {n : Nat} {s : State} (h : Good ok n s) (hs : ∀ w, s.step (.work w) = none) (hne : ∃ w, s.queues w ≠ []) :
    ¬ ok ∧ ∃ w id a b j rest, s.queues w = (id, .method a b (some j)) :: rest ∧ j ∈ rest.map (·.1) := by
  obtain ⟨w, hw, hmax⟩ : ∃ w, s.queues w ≠ [] ∧ ∀ v, w < v → s.queues v = [] := by
    have : ∀ d w, n - w ≤ d → s.queues w ≠ [] → ∃ w, s.queues w ≠ [] ∧ ∀ v, w < v → s.queues v = [] := by
      intro d
      induction d with
      | zero => intro w hd hw; have := h.rng w hw; omega
      | succ d ih =>
        intro w hd hw
        by_cases hh : ∃ v, w < v ∧ s.queues v ≠ []
        · obtain ⟨v, hv, hvq⟩ := hh
          exact ih v (by omega) hvq
        · refine ⟨w, hw, fun v hv => ?_⟩
          by_cases e : s.queues v = []
          · exact e
          · exact absurd ⟨v, hv, e⟩ hh
    obtain ⟨w, hw⟩ := hne
    exact this _ w (Nat.le_refl _) hw
  obtain ⟨id, a, b, j, rest, hq, hj⟩ := work_none (hs w) hw
  have hf := h.fine w _ (by rw [hq]; exact List.mem_cons_self)
  obtain ⟨hne, hd | ⟨v, hv, hle, hlt⟩⟩ := hf.2 j rfl
  · exact absurd hd hj
  · have hvne : s.queues v ≠ [] := by intro e; simp [ids, e] at hv
    have hvw : v = w := by
      rcases Nat.lt_or_ge w v with hh | hh
      · exact absurd (hmax v hh) hvne
      · omega
    refine ⟨fun hk => by have := hlt hk; omega, w, id, a, b, j, rest, hq, ?_⟩
    rw [hvw] at hv
    simp only [ids, hq, List.map_cons, List.mem_cons] at hv
    rcases hv with hv | hv
    · exact absurd hv hne
    · exact hv

/-- What `does` does to another queue. -/
theorem issue_queue {n : Nat} {s s' : State} {p : Nat} {cmd : Cmd} (hb : Base n s.tree) (h : s.issue p cmd = some s') (w : Nat) : ∃ l, s'.queues w = s.queues w ++ l := by
  obtain ⟨-, -, ⟨-, h4, -⟩ | ⟨t, i, j, rfl, -, -⟩⟩ := issue_cases hb h
  · exact ⟨[], by rw [h4]; simp⟩
  · simp only [State.add]
    split
    · exact ⟨_, rfl⟩
    · exact ⟨[], by simp⟩

theorem does_queue {n : Nat} {s : State} (hb : Base n s.tree) (v id a : Nat) (cmd : Cmd) (g : Bool) (r : Body) (w : Nat) (hw : w ≠ v) :
    ∃ l, (s.does v id a cmd g r).queues w = s.queues w ++ l := by
  simp only [State.does]
  split
  · exact ⟨[], by simp [State.finish, hw]⟩
  · rename_i s' hs
    obtain ⟨l, hl⟩ := issue_queue hb hs w
    exact ⟨l, by simp [State.head, hw, hl]⟩

/-- A method that waits for a call in its own queue: nothing leaves the queue. -/
theorem step_self {n : Nat} {s s' : State} {act : Act} (h : Good False n s) {w id a : Nat} {b : Body} {j : Nat} {rest : List (Nat × Job)}
    (hq : s.queues w = (id, .method a b (some j)) :: rest) (hj : j ∈ rest.map (·.1)) (hs : s.step act = some s') : ∃ l, s'.queues w = s.queues w ++ l := by
  cases act with
  | main cmd =>
    simp only [State.step, Option.some.injEq] at hs
    subst hs
    cases hi : s.issue 0 cmd with
    | none => exact ⟨[], by simp⟩
    | some t => exact issue_queue h.base hi w
  | work v =>
    by_cases hv : v = w
    · subst hv
      have hjn : j ∉ s.done.map (·.1) := h.uniq.done v j (by simp only [ids, hq, List.map_cons]; exact List.mem_cons_of_mem _ hj)
      obtain ⟨id', job, rest', hq', hc⟩ := work_cases hs
      rw [hq] at hq'
      cases hq'
      exfalso
      simp only [State.step, hq] at hs
      split at hs
      · cases hs
      all_goals
        rename_i hl
        obtain ⟨l1, l2, hl, -⟩ := List.lookup_eq_some_iff.1 hl
        apply hjn; rw [hl]; simp
    · have hv' : w ≠ v := fun e => hv e.symm
      obtain ⟨id', job, rest', -, hc⟩ := work_cases hs
      rcases hc with ⟨r, rfl⟩ | ⟨a, b, j, -, -, rfl⟩ | ⟨a, r, -, rfl⟩ | ⟨a, g, r, -, rfl⟩ | ⟨a, k, b, g, r, -, rfl⟩
      · exact ⟨[], by simp [State.finish, hv']⟩
      · exact ⟨[], by simp [State.head, hv']⟩
      · exact does_queue h.base v id' a _ _ _ w hv'
      · exact does_queue h.base v id' a _ _ _ w hv'
      · exact does_queue h.base v id' a _ _ _ w hv'

theorem run_self {n : Nat} {w id a : Nat} {b : Body} {j : Nat} (as : List Act) : ∀ {s s' : State} {rest : List (Nat × Job)}, Good False n s →
    s.queues w = (id, .method a b (some j)) :: rest → j ∈ rest.map (·.1) → s.run as = some s' → ∃ l, s'.queues w = s.queues w ++ l := by
  induction as with
  | nil => intro s s' rest _ _ _ h; cases h; exact ⟨[], by simp⟩
  | cons act as ih =>
    intro s s' rest hg hq hj h
    simp only [State.run, Option.bind_eq_some_iff] at h
    obtain ⟨u, hu, h⟩ := h
    obtain ⟨l, hl⟩ := step_self hg hq hj hu
    obtain ⟨l', hl'⟩ := ih (rest := rest ++ l) (step_good hg hu) (by rw [hl, hq]; rfl) (by simp only [List.map_append]; exact List.mem_append_left _ hj) h
    exact ⟨l ++ l', by rw [hl', hl, List.append_assoc]⟩

/-- How much a method still does. -/
def size : Body → Nat
  | .ret => 0
  | .create r => size r + 1
  | .call _ r => size r + 3
  | .method _ b _ r => size b + size r + 4

def weight : Job → Nat
  | .plain => 1
  | .method _ b none => size b + 1
  | .method _ b (some _) => size b + 2

def load (s : State) (w : Nat) : Nat := ((s.queues w).map fun x => weight x.2).sum

/-- What the first `n` workers have to do. -/
def total (s : State) : Nat → Nat
  | 0 => 0
  | n + 1 => total s n + load s n

theorem total_eq {s s' : State} {w : Nat} (h : ∀ v, v ≠ w → load s' v = load s v) : ∀ n,
    total s' n + (if w < n then load s w else 0) = total s n + if w < n then load s' w else 0 := by
  intro n
  induction n with
  | zero => simp [total]
  | succ n ih =>
    simp only [total]
    by_cases hw : n = w
    · subst hw
      simp only [Nat.lt_irrefl, if_false] at ih
      simp only [Nat.lt_succ_self, if_true]
      omega
    · rw [h n hw]
      by_cases hl : w < n
      · simp only [hl, if_true, show w < n + 1 by omega] at ih ⊢; omega
      · simp only [hl, if_false, show ¬ w < n + 1 by omega] at ih ⊢; omega

theorem total_finish (s : State) (w id : Nat) (r : Bool) (j : Job) (l : List (Nat × Job)) (hq : s.queues w = (id, j) :: l) (n : Nat) (hw : w < n) :
    total (s.finish w id r) n + weight j = total s n := by
  have := total_eq (s := s) (s' := s.finish w id r) (w := w) (fun v hv => by simp [load, State.finish, hv]) n
  simp only [hw, if_true, load, State.finish, hq, List.map_cons, List.sum_cons, List.tail_cons] at this
  simp only [State.finish] at *
  omega

theorem total_head (s : State) (w id : Nat) (j j' : Job) (l : List (Nat × Job)) (hq : s.queues w = (id, j) :: l) (n : Nat) (hw : w < n) :
    total (s.head w (id, j')) n + weight j = total s n + weight j' := by
  have := total_eq (s := s) (s' := s.head w (id, j')) (w := w) (fun v hv => by simp [load, State.head, hv]) n
  simp only [hw, if_true, load, State.head, hq, List.map_cons, List.sum_cons, List.tail_cons] at this
  simp only [State.head] at *
  omega

theorem total_add (s : State) (w : Nat) (j : Job) (n : Nat) : total (s.add w j) n ≤ total s n + weight j := by
  have := total_eq (s := s) (s' := s.add w j) (w := w) (fun v hv => by simp [load, State.add, hv]) n
  by_cases hw : w < n
  · simp only [hw, if_true] at this
    have hl : load (s.add w j) w = load s w + weight j := by simp [load, State.add]
    omega
  · simp only [hw, if_false] at this
    omega

theorem total_congr {s s' : State} (h : s'.queues = s.queues) (n : Nat) : total s' n = total s n := by
  induction n with
  | zero => rfl
  | succ n ih => simp only [total, ih, load, h]

/-- What a creation or call adds. -/
def cost : Cmd → Nat
  | .create => 0
  | .call => 1
  | .method _ b => size b + 1

theorem total_does {n : Nat} {s : State} (h : Good False n s) {w id a : Nat} {j : Job} {rest : List (Nat × Job)} (hq : s.queues w = (id, j) :: rest) (cmd : Cmd)
    (g : Bool) (r : Body) (hlt : cost cmd + size r + (if g then 2 else 1) < weight j) : total (s.does w id a cmd g r) n < total s n := by
  have hw : w < n := h.rng w (by rw [hq]; simp)
  have hwj : weight (.method a r (if g then some s.next else none)) = size r + if g then 2 else 1 := by cases g <;> rfl
  simp only [State.does]
  split
  · have := total_finish s w id false j rest hq n hw
    omega
  · rename_i s' hs
    have hle : total s' n ≤ total s n + cost cmd := by
      obtain ⟨-, -, ⟨-, h4, -⟩ | ⟨t, i, j, rfl, -, ⟨rfl, rfl, -⟩ | ⟨k, body, c, x, rfl, rfl, -⟩⟩⟩ := issue_cases h.base hs
      · rw [total_congr h4]; omega
      · have := total_add ({ s with tree := t } : State) i .plain n
        rw [total_congr (s := s) (s' := { s with tree := t }) rfl] at this
        exact this
      · have := total_add ({ s with tree := t } : State) i (.method c body none) n
        rw [total_congr (s := s) (s' := { s with tree := t }) rfl] at this
        exact this
    obtain ⟨l, hl⟩ := issue_queue h.base hs w
    have := total_head s' w id j (.method a r (if g then some s.next else none)) (rest ++ l) (by rw [hl, hq]; rfl) n hw
    omega

theorem work_less {n : Nat} {s s' : State} {w : Nat} (h : Good False n s) (hs : s.step (.work w) = some s') : total s' n < total s n := by
  obtain ⟨id, job, rest, hq, hc⟩ := work_cases hs
  have hw : w < n := h.rng w (by rw [hq]; simp)
  rcases hc with ⟨r, rfl⟩ | ⟨a, b, j, rfl, -, rfl⟩ | ⟨a, r, rfl, rfl⟩ | ⟨a, g, r, rfl, rfl⟩ | ⟨a, k, b, g, r, rfl, rfl⟩
  · have := total_finish s w id r job rest hq n hw
    have : 0 < weight job := by
      cases job with
      | plain => simp [weight]
      | method a b o => cases o <;> simp [weight]
    omega
  · have := total_head s w id _ (.method a b none) rest hq n hw
    simp only [weight] at this
    omega
  · exact total_does h hq _ _ _ (by simp [cost, weight, size])
  · exact total_does h hq _ _ _ (by cases g <;> simp [cost, weight, size] <;> omega)
  · exact total_does h hq _ _ _ (by cases g <;> simp [cost, weight, size] <;> omega)

theorem works_le {n : Nat} (ws : List Nat) : ∀ {s s' : State}, Good False n s → s.run (ws.map .work) = some s' → ws.length ≤ total s n := by
  induction ws with
  | nil => intros; simp
  | cons w ws ih =>
    intro s s' hg h
    simp only [List.map_cons, State.run, Option.bind_eq_some_iff] at h
    obtain ⟨u, hu, h⟩ := h
    have := ih (step_good hg hu) h
    have := work_less hg hu
    simp only [List.length_cons]
    omega

/-- A method gets results of functions only after it has made an actor, and results of methods only of actors other than the first of its process; `made` says
whether it has made one. -/
def Careful : Bool → Body → Prop
  | _, .ret => True
  | _, .create r => Careful true r
  | m, .call g r => (g = true → m = true) ∧ Careful m r
  | m, .method k b g r => (g = true → k ≠ 0) ∧ Careful false b ∧ Careful m r

/-- All methods in the queues are careful. -/
def Care (s : State) : Prop := ∀ w, ∀ it ∈ s.queues w, ∀ a b o, it.2 = .method a b o → ∃ m, Careful m b ∧
  (m = true → ∃ (c : Nat) (y : Place), s.tree.actors[c]? = some y ∧ y.maker = a + 1)

theorem Care.tree {s : State} (h : Care s) (t : PympPlaces.State) (ha : ∃ l, t.actors = s.tree.actors ++ l) : Care { s with tree := t } := by
  intro w it hit a b o e
  obtain ⟨m, h1, h2⟩ := h w it hit a b o e
  refine ⟨m, h1, fun hm => ?_⟩
  obtain ⟨c, y, hy, hc⟩ := h2 hm
  obtain ⟨l, hl⟩ := ha
  exact ⟨c, y, by simp only [hl]; rw [List.getElem?_append_left (List.getElem?_eq_some_iff.1 hy).1]; exact hy, hc⟩

theorem Care.add {s : State} (h : Care s) (w : Nat) (j : Job) (hj : ∀ a b o, j = .method a b o → Careful false b) : Care (s.add w j) := by
  intro v it hit a b o e
  simp only [State.add] at hit
  split at hit
  · rcases List.mem_append.1 hit with hit | hit
    · exact h v it hit a b o e
    · simp only [List.mem_singleton] at hit
      subst hit
      exact ⟨false, hj a b o e, fun e => by cases e⟩
  · exact h v it hit a b o e

theorem Care.finish {s : State} (h : Care s) (w id : Nat) (r : Bool) : Care (s.finish w id r) := by
  intro v it hit
  simp only [State.finish] at hit
  split at hit
  · exact h v it (List.mem_of_mem_tail hit)
  · exact h v it hit

theorem Care.head {s : State} (h : Care s) (w id a : Nat) (b : Body) (o : Option Nat) (m : Bool) (hm : Careful m b)
    (hk : m = true → ∃ (c : Nat) (y : Place), s.tree.actors[c]? = some y ∧ y.maker = a + 1) : Care (s.head w (id, .method a b o)) := by
  intro v it hit a' b' o' e
  simp only [State.head] at hit
  split at hit
  · rcases List.mem_cons.1 hit with rfl | hit
    · cases e; exact ⟨m, hm, hk⟩
    · exact h v it (List.mem_of_mem_tail hit) a' b' o' e
  · exact h v it hit a' b' o' e

theorem Care.issue {n : Nat} {s s' : State} (hb : Base n s.tree) (h : Care s) {p : Nat} {cmd : Cmd} (hc : ∀ k b, cmd = .method k b → Careful false b)
    (hs : s.issue p cmd = some s') : Care s' := by
  obtain ⟨h1, h2, ⟨-, h4, h5, h6, -⟩ | ⟨t, i, j, rfl, ht, h3⟩⟩ := issue_cases hb hs
  · have : s' = { s with tree := s'.tree } := by
      cases s'; simp only at h4 h5 h6; simp [h4, h5, h6]
    rw [this]
    exact h.tree _ h2
  · refine (h.tree t ⟨[], by simp [ht]⟩).add i j fun a b o e => ?_
    rcases h3 with ⟨-, rfl, -⟩ | ⟨k, body, c, x, rfl, rfl, -⟩
    · cases e
    · cases e; exact hc k _ rfl

theorem Care.does {n : Nat} {s : State} (hb : Base n s.tree) (h : Care s) (w id a : Nat) (cmd : Cmd) (g : Bool) (r : Body) (m : Bool)
    (hc : ∀ k b, cmd = .method k b → Careful false b) (hr : Careful (m || decide (cmd = .create)) r)
    (hm : m = true → ∃ (c : Nat) (y : Place), s.tree.actors[c]? = some y ∧ y.maker = a + 1) : Care (s.does w id a cmd g r) := by
  simp only [State.does]
  split
  · exact h.finish w id false
  · rename_i s' hs
    refine (h.issue hb hc hs).head w id a r _ _ hr fun hh => ?_
    obtain ⟨-, ⟨l, hl⟩, h3⟩ := issue_cases hb hs
    cases m with
    | true =>
      obtain ⟨c, y, hy, hym⟩ := hm rfl
      exact ⟨c, y, by rw [hl, List.getElem?_append_left (List.getElem?_eq_some_iff.1 hy).1]; exact hy, hym⟩
    | false =>
      have hcr : cmd = .create := by simpa using hh
      subst hcr
      rcases h3 with ⟨-, -, -, -, v, hv⟩ | ⟨t, i, j, -, -, ⟨e, -⟩ | ⟨k, body, c, x, e, -⟩⟩
      · exact ⟨s.tree.actors.length, ⟨a + 1, v, true⟩, by rw [hv]; simp, rfl⟩
      · cases e
      · cases e

theorem step_care {n : Nat} {s s' : State} {act : Act} (h : Good True n s) (hc : Care s) (ha : ∀ k b, act = .main (.method k b) → Careful false b)
    (hs : s.step act = some s') : Good True n s' ∧ Care s' := by
  cases act with
  | main cmd =>
    simp only [State.step, Option.some.injEq] at hs
    subst hs
    cases hi : s.issue 0 cmd with
    | none => exact ⟨h, hc⟩
    | some t => exact ⟨h.main hi, hc.issue h.base (fun k b e => ha k b (by rw [e])) hi⟩
  | work w =>
    obtain ⟨id, job, rest, hq, hcs⟩ := work_cases hs
    have hh : (ids s w).head? = some id := by simp [ids, hq]
    have hmem : (id, job) ∈ s.queues w := by rw [hq]; exact List.mem_cons_self
    rcases hcs with ⟨r, rfl⟩ | ⟨a, b, j, rfl, -, rfl⟩ | ⟨a, r, rfl, rfl⟩ | ⟨a, g, r, rfl, rfl⟩ | ⟨a, k, b, g, r, rfl, rfl⟩
    · exact ⟨h.finish w id r hh, hc.finish w id r⟩
    · obtain ⟨m, h1, h2⟩ := hc w _ hmem _ _ _ rfl
      have hf := h.fine w (id, .method a b (some j)) hmem
      exact ⟨h.head w id a b none hh hf.1 (fun _ e => by cases e), hc.head w id a b none m h1 h2⟩
    · obtain ⟨m, h1, h2⟩ := hc w _ hmem _ _ _ rfl
      exact ⟨h.does hq _ _ _ (fun e => by cases e) (fun _ e => by cases e), hc.does h.base w id a _ _ _ m (fun _ _ e => by cases e) (by simpa [Careful] using h1) h2⟩
    · obtain ⟨m, h1, h2⟩ := hc w _ hmem _ _ _ rfl
      exact ⟨h.does hq _ _ _ (fun _ => by simp) (fun _ hg => h2 (h1.1 hg)), hc.does h.base w id a _ _ _ m (fun _ _ e => by cases e) (by simpa using h1.2) h2⟩
    · obtain ⟨m, h1, h2⟩ := hc w _ hmem _ _ _ rfl
      exact ⟨h.does hq _ _ _ (fun _ => by simp) (fun _ hg => h1.1 hg),
        hc.does h.base w id a _ _ _ m (fun _ _ e => by cases e; exact h1.2.1) (by simpa using h1.2.2) h2⟩

theorem run_care {n : Nat} (as : List Act) : ∀ {s s' : State}, Good True n s → Care s → (∀ k b, .main (.method k b) ∈ as → Careful false b) → s.run as = some s' →
    Good True n s' ∧ Care s' := by
  induction as with
  | nil => intro s s' hg hc _ h; cases h; exact ⟨hg, hc⟩
  | cons a as ih =>
    intro s s' hg hc ha h
    simp only [State.run, Option.bind_eq_some_iff] at h
    obtain ⟨u, hu, h⟩ := h
    obtain ⟨h1, h2⟩ := step_care hg hc (fun k b e => ha k b (by rw [e]; exact List.mem_cons_self)) hu
    exact ih h1 h2 (fun k b hm => ha k b (List.mem_cons_of_mem _ hm)) h

end Verif.PympTree
