import Verif.Lemmas.PympMeaning
import Verif.Lemmas.PympManager

/-! Helper lemmas about runs of the multiprocessing backend: transitions of workers and the shape of reachable states. -/
namespace Verif.Pymp
open Verif.Spec.Pymp

/-- The action is one of worker `w`. -/
def Act.byWorker : Act → Option Nat
  | .take w => some w
  | .fetch w => some w
  | .finish w => some w
  | .write w => some w
  | _ => none

/-- The transitions of a worker, one constructor per branch. -/
inductive Inner (W : World) (s : State) (w : Nat) : State → Prop
  | take {t queue} (h : s.workers[w]? = some ⟨t :: queue, none, false⟩) :
      Inner W s w (s.setWorker w ⟨queue, some (t, .fetch [] t.args), false⟩)
  | start {queue t done} (h : s.workers[w]? = some ⟨queue, some (t, .fetch done []), false⟩) :
      Inner W s w { s.setWorker w ⟨queue, some (t, .running done), false⟩ with log := s.log ++ [.begins t.idx t.target] }
  | lit {queue t done v rest} (h : s.workers[w]? = some ⟨queue, some (t, .fetch done (.lit v :: rest)), false⟩) :
      Inner W s w (s.setWorker w ⟨queue, some (t, .fetch (done ++ [v]) rest), false⟩)
  | value {queue t done id rest v u} (h : s.workers[w]? = some ⟨queue, some (t, .fetch done (.ref id :: rest)), false⟩)
      (hs : s.store id = some (.val v)) (hg : getVal W v = .ok u) :
      Inner W s w (s.setWorker w ⟨queue, some (t, .fetch (done ++ [u]) rest), false⟩)
  | error {queue t done id rest v e} (h : s.workers[w]? = some ⟨queue, some (t, .fetch done (.ref id :: rest)), false⟩)
      (hs : s.store id = some (.val v)) (hg : getVal W v = .error e) :
      Inner W s w (s.setWorker w ⟨queue, some (t, .write (failed t.outs e)), false⟩)
  | raised {queue t args e} (h : s.workers[w]? = some ⟨queue, some (t, .running args), false⟩)
      (hc : callTarget W (histOf s.actors t.target) args t.target = .raise e) :
      Inner W s w (({ s with log := s.log ++ [.ends t.idx t.target], actors := record s.actors args t.target } : State).setWorker w
        ⟨queue, some (t, .write (failed t.outs e)), false⟩)
  | returned {queue t args v items todo} (h : s.workers[w]? = some ⟨queue, some (t, .running args), false⟩)
      (hc : callTarget W (histOf s.actors t.target) args t.target = .ok v items) (hd : stored t.outs v items = some todo) :
      Inner W s w (({ s with log := s.log ++ [.ends t.idx t.target], actors := record s.actors args t.target } : State).setWorker w
        ⟨queue, some (t, .write todo), false⟩)
  | dies {queue t args v items} (h : s.workers[w]? = some ⟨queue, some (t, .running args), false⟩)
      (hc : callTarget W (histOf s.actors t.target) args t.target = .ok v items) (hd : stored t.outs v items = none) :
      Inner W s w (({ s with log := s.log ++ [.ends t.idx t.target], actors := record s.actors args t.target } : State).setWorker w
        ⟨queue, none, true⟩)
  | write {queue t o v todo} (h : s.workers[w]? = some ⟨queue, some (t, .write ((o, v) :: todo)), false⟩) :
      Inner W s w { s.setWorker w ⟨queue, some (t, .write todo), false⟩ with store := upd s.store o (some (.val v)) }
  | idle {queue t} (h : s.workers[w]? = some ⟨queue, some (t, .write []), false⟩) :
      Inner W s w (s.setWorker w ⟨queue, none, false⟩)

theorem inner_of_step {W : World} {s s' : State} {a : Act} {w : Nat} (ha : a.byWorker = some w) (h : step W s a = some s') :
    Inner W s w s' := by
  cases a with
  | put v => simp [Act.byWorker] at ha
  | submit f args n => simp [Act.byWorker] at ha
  | create cls => simp [Act.byWorker] at ha
  | method a m args n => simp [Act.byWorker] at ha
  | drop a => simp [Act.byWorker] at ha
  | take v =>
    simp only [Act.byWorker, Option.some.injEq] at ha
    subst ha
    simp only [step] at h
    split at h
    · rename_i hw
      rw [← Option.some.inj h]; exact .take hw
    · cases h
  | fetch v =>
    simp only [Act.byWorker, Option.some.injEq] at ha
    subst ha
    simp only [step] at h
    split at h
    · rename_i hw
      rw [← Option.some.inj h]; exact .start hw
    · rename_i hw
      rw [← Option.some.inj h]; exact .lit hw
    · rename_i hw
      split at h
      · rename_i hs
        split at h
        · rename_i hg
          rw [← Option.some.inj h]; exact .value hw hs hg
        · rename_i hg
          rw [← Option.some.inj h]; exact .error hw hs hg
      · cases h
    · cases h
  | finish v =>
    simp only [Act.byWorker, Option.some.injEq] at ha
    subst ha
    simp only [step] at h
    split at h
    · rename_i hw
      split at h
      · rename_i hc
        rw [← Option.some.inj h]; exact .raised hw hc
      · rename_i hc
        split at h
        · rename_i hd
          rw [← Option.some.inj h]; exact .returned hw hc hd
        · rename_i hd
          rw [← Option.some.inj h]; exact .dies hw hc hd
    · cases h
  | write v =>
    simp only [Act.byWorker, Option.some.injEq] at ha
    subst ha
    simp only [step] at h
    split at h
    · rename_i hw
      rw [← Option.some.inj h]; exact .write hw
    · rename_i hw
      rw [← Option.some.inj h]; exact .idle hw
    · cases h

/-- The task in hand. -/
def held : Option (Task × Phase) → List Task
  | some (t, _) => [t]
  | none => []

/-- The task in hand if its function has not returned yet. -/
def before : Option (Task × Phase) → List Task
  | some (t, .fetch _ _) => [t]
  | some (t, .running _) => [t]
  | _ => []

/-- All tasks of a worker. -/
def tasks (x : Worker) : List Task := held x.cur ++ x.queue

/-- The tasks of a worker whose function has not returned yet. -/
def pend (x : Worker) : List Task := before x.cur ++ x.queue

theorem pend_sub (x : Worker) : (pend x).Sublist (tasks x) := by
  obtain ⟨queue, cur, dead⟩ := x
  match cur with
  | none => exact List.Sublist.refl _
  | some (t, .fetch _ _) => exact List.Sublist.refl _
  | some (t, .running _) => exact List.Sublist.refl _
  | some (t, .write _) => exact List.sublist_cons_self _ _

/-- Structural facts about reachable states with `n` workers. -/
structure Shape (n : Nat) (s : State) : Prop where
  lenP : s.pool.grabbed.length = n
  nextP : s.pool.nextId < s.pool.grabbed.length ∨ s.pool.grabbed.length = 0
  lenW : s.workers.length = n
  actorW : ∀ (a : Nat) (x : Actor), s.actors[a]? = some x → x.worker < n
  span : Span 0 s.items s.next
  fresh : ∀ id, s.next ≤ id → s.store id = none
  idx : ∀ (w : Nat) (x : Worker), s.workers[w]? = some x → ∀ t ∈ tasks x, s.items[t.idx]? = some (.task t)
  sorted : ∀ (w : Nat) (x : Worker), s.workers[w]? = some x → ((tasks x).map (·.idx)).Pairwise (· < ·)
  home : ∀ (w : Nat) (x : Worker), s.workers[w]? = some x → ∀ t ∈ tasks x, ∀ a c m, t.target = .method a c m →
    ∃ y : Actor, s.actors[a]? = some y ∧ y.worker = w
  target : ∀ t, Item.task t ∈ s.items → ∀ a c m, t.target = .method a c m → ∃ y : Actor, s.actors[a]? = some y
  given : ∀ (i : Nat) (t : Task), s.items[i]? = some (Item.task t) → ∀ id, Arg.ref id ∈ t.args → ∃ j x, j < i ∧
    s.items[j]? = some x ∧ id ∈ x.refs
  place : ∀ (i : Nat) (t : Task), s.items[i]? = some (Item.task t) → t.idx = i

theorem shape_init (n : Nat) : Shape n (State.init n) := by
  have hw : ∀ (w : Nat) (x : Worker), (State.init n).workers[w]? = some x → tasks x = [] := by
    intro w x h
    simp only [State.init, List.getElem?_replicate] at h
    split at h
    · simp only [Option.some.injEq] at h; subst h; rfl
    · cases h
  refine ⟨by simp [State.init, PympPool.Pool.init], by simp [State.init, PympPool.Pool.init]; omega, by simp [State.init], by simp [State.init], .nil, fun _ _ => rfl, ?_, ?_, ?_, by simp [State.init], by simp [State.init], by simp [State.init]⟩
  · intro w x h t ht; rw [hw w x h] at ht; simp at ht
  · intro w x h; rw [hw w x h]; simp
  · intro w x h t ht; rw [hw w x h] at ht; simp at ht

theorem record_getElem (actors : List Actor) (args : List Val) (t : Target) (a : Nat) :
    (record actors args t)[a]? = (actors[a]?).map fun x =>
      match t with
      | .fn _ => x
      | .method b _ m => if b = a then { x with hist := x.hist ++ [(m, args)] } else x := by
  cases t with
  | fn f => simp [record]
  | method b c m =>
    simp only [record, List.getElem?_modify]
    cases actors[a]? with
    | none => rfl
    | some x => by_cases h : b = a <;> simp [h]

theorem record_worker {actors : List Actor} {args : List Val} {t : Target} {a : Nat} {y : Actor}
    (h : (record actors args t)[a]? = some y) : ∃ x, actors[a]? = some x ∧ x.worker = y.worker ∧ x.cls = y.cls := by
  rw [record_getElem] at h
  obtain ⟨x, hx, rfl⟩ := Option.map_eq_some_iff.1 h
  refine ⟨x, hx, ?_⟩
  cases t with
  | fn f => exact ⟨rfl, rfl⟩
  | method b c m => by_cases e : b = a <;> simp [e]

theorem worker_record {actors : List Actor} {args : List Val} {t : Target} {a : Nat} {x : Actor}
    (h : actors[a]? = some x) : ∃ y, (record actors args t)[a]? = some y ∧ y.worker = x.worker := by
  rw [record_getElem, h]
  refine ⟨_, rfl, ?_⟩
  cases t with
  | fn f => rfl
  | method b c m => by_cases e : b = a <;> simp [e]

/-- What a worker transition does to the structure. -/
structure Frame (s : State) (w : Nat) (s' : State) : Prop where
  change : ∃ x x', s.workers[w]? = some x ∧ s'.workers = s.workers.set w x' ∧ (tasks x').Sublist (tasks x)
  items : s'.items = s.items
  next : s'.next = s.next
  pool : s'.pool = s.pool
  worker : ∀ (a : Nat) (y : Actor), s'.actors[a]? = some y → ∃ x, s.actors[a]? = some x ∧ x.worker = y.worker
  worker' : ∀ (a : Nat) (x : Actor), s.actors[a]? = some x → ∃ y, s'.actors[a]? = some y ∧ y.worker = x.worker

theorem frame_of_inner {W : World} {s s' : State} {w : Nat} (h : Inner W s w s') : Frame s w s' := by
  have hw : ∀ (a : Nat) (y : Actor), s.actors[a]? = some y → ∃ x, s.actors[a]? = some x ∧ x.worker = y.worker := fun a y h => ⟨y, h, rfl⟩
  cases h with
  | take h => exact ⟨⟨_, _, h, rfl, List.Sublist.refl _⟩, rfl, rfl, rfl, hw, hw⟩
  | start h => exact ⟨⟨_, _, h, rfl, List.Sublist.refl _⟩, rfl, rfl, rfl, hw, hw⟩
  | lit h => exact ⟨⟨_, _, h, rfl, List.Sublist.refl _⟩, rfl, rfl, rfl, hw, hw⟩
  | value h hs hg => exact ⟨⟨_, _, h, rfl, List.Sublist.refl _⟩, rfl, rfl, rfl, hw, hw⟩
  | error h hs hg => exact ⟨⟨_, _, h, rfl, List.Sublist.refl _⟩, rfl, rfl, rfl, hw, hw⟩
  | raised h hc =>
    exact ⟨⟨_, _, h, rfl, List.Sublist.refl _⟩, rfl, rfl, rfl,
      fun a y hy => by obtain ⟨x, h1, h2, -⟩ := record_worker hy; exact ⟨x, h1, h2⟩, fun a x hx => worker_record hx⟩
  | returned h hc hd =>
    exact ⟨⟨_, _, h, rfl, List.Sublist.refl _⟩, rfl, rfl, rfl,
      fun a y hy => by obtain ⟨x, h1, h2, -⟩ := record_worker hy; exact ⟨x, h1, h2⟩, fun a x hx => worker_record hx⟩
  | dies h hc hd =>
    exact ⟨⟨_, _, h, rfl, List.sublist_cons_self _ _⟩, rfl, rfl, rfl,
      fun a y hy => by obtain ⟨x, h1, h2, -⟩ := record_worker hy; exact ⟨x, h1, h2⟩, fun a x hx => worker_record hx⟩
  | write h => exact ⟨⟨_, _, h, rfl, List.Sublist.refl _⟩, rfl, rfl, rfl, hw, hw⟩
  | idle h => exact ⟨⟨_, _, h, rfl, List.sublist_cons_self _ _⟩, rfl, rfl, rfl, hw, hw⟩

/-- Outputs of a submitted task are references made before. -/
theorem _root_.Verif.Spec.Pymp.Span.outs_lt {lo hi : Nat} {l : List Item} (h : Span lo l hi) {t : Task} (ht : Item.task t ∈ l) :
    ∀ o ∈ t.outs, o < hi := by
  induction h with
  | nil => simp at ht
  | skip _ _ ih => exact ih ht
  | put _ ih => exact ih (by simpa using ht)
  | task h1 h2 h3 h4 hs ih =>
    rcases List.mem_cons.1 ht with e | ht
    · cases e
      intro o ho
      have := (h2 o ho).2
      have := hs.le
      omega
    · exact ih ht

theorem _root_.Verif.Spec.Pymp.Span.args_lt {lo hi : Nat} {l : List Item} (h : Span lo l hi) {t : Task} (ht : Item.task t ∈ l) :
    ∀ id, Arg.ref id ∈ t.args → id < hi := by
  induction h with
  | nil => simp at ht
  | skip _ _ ih => exact ih ht
  | put _ ih => exact ih (by simpa using ht)
  | task h1 h2 h3 h4 hs ih =>
    rcases List.mem_cons.1 ht with e | ht
    · cases e
      intro o ho
      have := h1 o ho
      have := hs.le
      omega
    · exact ih ht

/-- What the phase of a worker says about the outputs still to be written. -/
def TodoOk (s : State) : Prop :=
  ∀ (w : Nat) queue t todo d, s.workers[w]? = some ⟨queue, some (t, .write todo), d⟩ → ∀ p ∈ todo, p.1 ∈ t.outs

theorem failed_keys (outs : List Nat) (e : Nat) : ∀ p ∈ failed outs e, p.1 ∈ outs := by
  intro p hp
  simp only [failed, List.mem_map] at hp
  obtain ⟨o, ho, rfl⟩ := hp
  exact ho

theorem stored_keys {outs : List Nat} {v : Val} {items : Option (List Val)} {todo : List (Nat × Val)}
    (h : stored outs v items = some todo) : ∀ p ∈ todo, p.1 ∈ outs := by
  intro p hp
  match outs, items with
  | [], _ => simp [stored] at h; subst h; simp at hp
  | [o], _ => simp [stored] at h; subst h; simp at hp; simp [hp]
  | a :: b :: outs, none => simp [stored] at h
  | a :: b :: outs, some l =>
    simp only [stored, Option.map_some, Option.some.injEq] at h
    subst h
    exact (List.of_mem_zip hp).1

theorem todoOk_inner {W : World} {s s' : State} {w : Nat} (ht : TodoOk s) (h : Inner W s w s') : TodoOk s' := by
  have key : ∀ x', s'.workers = s.workers.set w x' →
      (∀ t todo, x'.cur = some (t, .write todo) → ∀ p ∈ todo, p.1 ∈ t.outs) → TodoOk s' := by
    intro x' hx hc v queue t todo d hv
    rw [hx, List.getElem?_set] at hv
    split at hv
    · split at hv
      · simp only [Option.some.injEq] at hv
        exact hc t todo (by rw [hv])
      · cases hv
    · exact ht v queue t todo d hv
  cases h with
  | take h => exact key _ rfl (by simp)
  | start h => exact key _ rfl (by simp)
  | lit h => exact key _ rfl (by simp)
  | value h hs hg => exact key _ rfl (by simp)
  | error h hs hg =>
    refine key _ rfl ?_
    intro t todo e
    simp only [Option.some.injEq, Prod.mk.injEq, Phase.write.injEq] at e
    obtain ⟨rfl, rfl⟩ := e
    exact failed_keys _ _
  | raised h hc =>
    refine key _ rfl ?_
    intro t todo e
    simp only [Option.some.injEq, Prod.mk.injEq, Phase.write.injEq] at e
    obtain ⟨rfl, rfl⟩ := e
    exact failed_keys _ _
  | returned h hc hd =>
    refine key _ rfl ?_
    intro t todo e
    simp only [Option.some.injEq, Prod.mk.injEq, Phase.write.injEq] at e
    obtain ⟨rfl, rfl⟩ := e
    exact stored_keys hd
  | dies h hc hd => exact key _ rfl (by simp)
  | write h =>
    refine key _ rfl ?_
    intro t todo e
    simp only [Option.some.injEq, Prod.mk.injEq, Phase.write.injEq] at e
    obtain ⟨rfl, rfl⟩ := e
    intro p hp
    exact ht w _ _ _ _ h p (List.mem_cons_of_mem _ hp)
  | idle h => exact key _ rfl (by simp)

theorem shape_inner {W : World} {n : Nat} {s s' : State} {w : Nat} (hs : Shape n s) (hto : TodoOk s) (h : Inner W s w s') :
    Shape n s' := by
  have hf := frame_of_inner h
  obtain ⟨x, x', hx, hx', hsub⟩ := hf.change
  have hget : ∀ (v : Nat) (y : Worker), s'.workers[v]? = some y → ∃ z, s.workers[v]? = some z ∧ (tasks y).Sublist (tasks z) := by
    intro v y hv
    rw [hx', List.getElem?_set] at hv
    split at hv
    · rename_i e
      split at hv
      · simp only [Option.some.injEq] at hv
        subst hv e
        exact ⟨x, hx, hsub⟩
      · cases hv
    · exact ⟨y, hv, List.Sublist.refl _⟩
  refine ⟨by rw [hf.pool]; exact hs.lenP, by rw [hf.pool]; exact hs.nextP, by rw [hx', List.length_set]; exact hs.lenW, ?_,
    by rw [hf.items, hf.next]; exact hs.span, ?_, ?_, ?_, ?_, ?_, by rw [hf.items]; exact hs.given, by rw [hf.items]; exact hs.place⟩
  · intro a y hy
    obtain ⟨z, hz, e⟩ := hf.worker a y hy
    rw [← e]; exact hs.actorW a z hz
  · intro id hid
    rw [hf.next] at hid
    cases h with
    | write h =>
      rename_i queue t o v todo
      have ho : o < s.next := by
        have hm := hto w _ _ _ _ h (o, v) (by simp)
        have hi := hs.idx w _ h t (by simp [tasks, held])
        exact hs.span.outs_lt (List.mem_of_getElem? hi) o hm
      simp only [upd]
      rw [if_neg (by omega)]
      exact hs.fresh id hid
    | _ => exact hs.fresh id hid
  · intro v y hv t ht
    obtain ⟨z, hz, hsub⟩ := hget v y hv
    rw [hf.items]
    exact hs.idx v z hz t (hsub.subset ht)
  · intro v y hv
    obtain ⟨z, hz, hsub⟩ := hget v y hv
    exact (hs.sorted v z hz).sublist (hsub.map _)
  · intro v y hv t ht a c m e
    obtain ⟨z, hz, hsub⟩ := hget v y hv
    obtain ⟨u, hu, e'⟩ := hs.home v z hz t (hsub.subset ht) a c m e
    obtain ⟨u', hu', e''⟩ := hf.worker' a u hu
    exact ⟨u', hu', e''.trans e'⟩
  · intro t ht a c m e
    rw [hf.items] at ht
    obtain ⟨u, hu⟩ := hs.target t ht a c m e
    obtain ⟨u', hu', -⟩ := hf.worker' a u hu
    exact ⟨u', hu'⟩

/-! ## Transitions of the main process -/

/-- The pool stays well-formed. -/
def PoolOk (n : Nat) (p : PympPool.Pool) : Prop := p.grabbed.length = n ∧ (p.nextId < p.grabbed.length ∨ p.grabbed.length = 0)

/-- The transitions of the main process. -/
inductive Outer (W : World) (n : Nat) (s : State) : State → Prop
  | put (v : Val) :
      Outer W n s { s with store := upd s.store s.next (some (.val (putVal W v))), next := s.next + 1,
                           items := s.items ++ [.put s.next v] }
  | refuse (k : Nat) (pool : PympPool.Pool) (hp : PoolOk n pool) :
      Outer W n s { s with store := delayAll s.store (newIds s k), next := s.next + k, pool := pool }
  | task (t : Task) (w k : Nat) (pool : PympPool.Pool) (hp : PoolOk n pool) (hw : w < n) (hi : t.idx = s.items.length)
      (ho : t.outs = newIds s k) (ha : ∀ id, Arg.ref id ∈ t.args → id < s.next)
      (hg : ∀ id, Arg.ref id ∈ t.args → ∃ x ∈ s.items, id ∈ x.refs)
      (ht : ∀ a c m, t.target = .method a c m → ∃ y : Actor, s.actors[a]? = some y ∧ y.worker = w) :
      Outer W n s { s with store := delayAll s.store (newIds s k), next := s.next + k, pool := pool,
                           workers := addTask s.workers w t, items := s.items ++ [.task t] }
  | admin (pool : PympPool.Pool) (actors : List Actor) (hp : PoolOk n pool)
      (h1 : ∀ (a : Nat) (y : Actor), actors[a]? = some y →
        (∃ x : Actor, s.actors[a]? = some x ∧ x.worker = y.worker ∧ x.hist = y.hist) ∨
        (s.actors[a]? = none ∧ y.hist = [] ∧ y.worker < n))
      (h2 : ∀ (a : Nat) (x : Actor), s.actors[a]? = some x → ∃ y : Actor, actors[a]? = some y ∧ y.worker = x.worker) :
      Outer W n s { s with pool := pool, actors := actors }

theorem known_iff {s : State} {args : List Arg} (h : known s args = true) : ∀ id, Arg.ref id ∈ args → ∃ x ∈ s.items, id ∈ x.refs := by
  intro id hid
  simp only [known, List.all_eq_true] at h
  simpa using h _ hid

theorem _root_.Verif.Spec.Pymp.Span.refs_lt {lo hi : Nat} {l : List Item} (h : Span lo l hi) {x : Item} (hx : x ∈ l) :
    ∀ o ∈ x.refs, o < hi := by
  induction h with
  | nil => simp at hx
  | skip _ _ ih => exact ih hx
  | put hs ih =>
    rcases List.mem_cons.1 hx with rfl | hx
    · intro o ho
      simp only [Item.refs, List.mem_singleton] at ho
      have := hs.le
      omega
    · exact ih hx
  | task h1 h2 h3 h4 hs ih =>
    rcases List.mem_cons.1 hx with rfl | hx
    · intro o ho
      have := (h2 o ho).2
      have := hs.le
      omega
    · exact ih hx

theorem known_lt {s : State} {args : List Arg} (hs : Span 0 s.items s.next) (h : known s args = true) :
    ∀ id, Arg.ref id ∈ args → id < s.next := by
  intro id hid
  obtain ⟨x, hx, hm⟩ := known_iff h id hid
  exact hs.refs_lt hx id hm

theorem outer_of_step {W : World} {n : Nat} {s s' : State} {a : Act} (hs : Shape n s) (ha : a.byWorker = none)
    (h : step W s a = some s') : Outer W n s s' := by
  obtain ⟨p1, p2, p3, -⟩ := PympPool.submit_spec s.pool hs.nextP
  have hpool : PoolOk n s.pool.submit.2 := by
    refine ⟨by rw [p1]; exact hs.lenP, by rw [p1]; exact p2⟩
  cases a with
  | take w => simp [Act.byWorker] at ha
  | fetch w => simp [Act.byWorker] at ha
  | finish w => simp [Act.byWorker] at ha
  | write w => simp [Act.byWorker] at ha
  | put v =>
    simp only [step] at h
    rw [← Option.some.inj h]; exact .put v
  | submit f args k =>
    simp only [step] at h
    split at h
    · rename_i hk
      split at h
      · rw [← Option.some.inj h]; exact .refuse k _ hpool
      · rename_i w hw
        rw [← Option.some.inj h]
        have hlt : w < n := by
          have := (List.getElem?_eq_some_iff.1 (p3 w hw)).1
          rw [hs.lenP] at this; exact this
        exact .task ⟨s.items.length, .fn f, args, newIds s k⟩ w k _ hpool hlt rfl rfl (known_lt hs.span hk) (known_iff hk) (by simp)
    · cases h
  | create cls =>
    simp only [step] at h
    split at h
    · rw [← Option.some.inj h]
      exact .admin s.pool s.actors ⟨hs.lenP, hs.nextP⟩ (fun a y hy => Or.inl ⟨y, hy, rfl, rfl⟩) (fun a x hx => ⟨x, hx, rfl⟩)
    · rename_i w hw
      rw [← Option.some.inj h]
      simp only [PympPool.Pool.grab] at hw ⊢
      split at hw
      · rename_i i hf
        simp only [Option.some.injEq] at hw
        subst hw
        have hlt : i < n := by
          have := (List.getElem?_eq_some_iff.1 (PympPool.firstFree_some hf)).1
          rw [hs.lenP] at this; exact this
        refine .admin _ _ ⟨by simp [hs.lenP], by simpa using hs.nextP⟩ ?_ ?_
        · intro a y hy
          by_cases hal : a < s.actors.length
          · rw [List.getElem?_append_left hal] at hy
            exact Or.inl ⟨y, hy, rfl, rfl⟩
          · rw [List.getElem?_append_right (by omega)] at hy
            refine Or.inr ⟨List.getElem?_eq_none (by omega), ?_⟩
            have := List.mem_of_getElem? hy
            simp only [List.mem_singleton] at this
            subst this
            exact ⟨rfl, hlt⟩
        · intro a x hx
          have hal := (List.getElem?_eq_some_iff.1 hx).1
          exact ⟨x, by rw [List.getElem?_append_left hal]; exact hx, rfl⟩
      · cases hw
  | method a m args k =>
    simp only [step] at h
    split at h
    · cases h
    · rename_i x hx
      split at h
      · rename_i hl
        rw [← Option.some.inj h]
        refine .task ⟨s.items.length, .method a x.cls m, args, newIds s k⟩ x.worker k s.pool ⟨hs.lenP, hs.nextP⟩ (hs.actorW a x hx) rfl rfl
          (known_lt hs.span hl.2) (known_iff hl.2) ?_
        intro a' c m' e
        simp only [Target.method.injEq] at e
        obtain ⟨rfl, -, -⟩ := e
        exact ⟨x, hx, rfl⟩
      · cases h
  | drop a =>
    simp only [step] at h
    split at h
    · cases h
    · rename_i x hx
      split at h
      · rw [← Option.some.inj h]
        have hal := (List.getElem?_eq_some_iff.1 hx).1
        refine .admin _ _ ⟨by simp [PympPool.Pool.free, hs.lenP], by simpa [PympPool.Pool.free] using hs.nextP⟩ ?_ ?_
        · intro b y hy
          rw [List.getElem?_set] at hy
          split at hy
          · rename_i e
            subst e
            simp only [Option.some.injEq] at hy
            subst hy
            exact Or.inl ⟨x, hx, rfl, rfl⟩
          · exact Or.inl ⟨y, hy, rfl, rfl⟩
        · intro b y hy
          rw [List.getElem?_set]
          split
          · rename_i e
            subst e
            rw [hx] at hy
            simp only [Option.some.injEq] at hy
            subst hy
            exact ⟨_, rfl, rfl⟩
          · exact ⟨y, hy, rfl⟩
      · cases h

theorem mem_newIds {s : State} {k o : Nat} : o ∈ newIds s k ↔ s.next ≤ o ∧ o < s.next + k := by
  simp only [newIds, List.mem_map, List.mem_range]
  constructor
  · rintro ⟨i, hi, rfl⟩; omega
  · rintro ⟨h1, h2⟩; exact ⟨o - s.next, by omega, by omega⟩

theorem newIds_nodup {s : State} {k : Nat} : (newIds s k).Nodup := by
  simp only [newIds]
  rw [List.Nodup, List.pairwise_map]
  exact List.nodup_range.imp fun h => by omega

theorem delayAll_apply (ids : List Nat) : ∀ (st : Nat → Option Cell) (id : Nat),
    delayAll st ids id = if id ∈ ids then some .delayed else st id := by
  induction ids with
  | nil => intro st id; simp [delayAll]
  | cons i ids ih =>
    intro st id
    have : delayAll st (i :: ids) = delayAll (upd st i (some .delayed)) ids := rfl
    rw [this, ih]
    by_cases h1 : id ∈ ids
    · simp [h1]
    · by_cases h2 : id = i
      · simp [h2, upd]
      · simp [h1, h2, upd]

theorem addTask_getElem (ws : List Worker) (w : Nat) (t : Task) (v : Nat) :
    (addTask ws w t)[v]? = (ws[v]?).map fun x => if w = v then { x with queue := x.queue ++ [t] } else x := by
  simp only [addTask, List.getElem?_modify]
  cases ws[v]? with
  | none => rfl
  | some x => by_cases h : w = v <;> simp [h]

theorem _root_.Verif.Spec.Pymp.Span.put_snoc {hi : Nat} {l : List Item} (h : Span 0 l hi) (v : Val) : Span 0 (l ++ [.put hi v]) (hi + 1) :=
  h.append (.put .nil)

theorem span_task {s : State} {t : Task} {k : Nat} (h : Span 0 s.items s.next) (ho : t.outs = newIds s k)
    (ha : ∀ id, Arg.ref id ∈ t.args → id < s.next) : Span 0 (s.items ++ [.task t]) (s.next + k) := by
  refine h.append (.task ha ?_ (by omega) (by rw [ho]; exact newIds_nodup) .nil)
  intro o hm
  rw [ho] at hm
  exact mem_newIds.1 hm

theorem tasks_push (x : Worker) (t : Task) : tasks { x with queue := x.queue ++ [t] } = tasks x ++ [t] := by
  simp [tasks]

theorem pend_push (x : Worker) (t : Task) : pend { x with queue := x.queue ++ [t] } = pend x ++ [t] := by
  simp [pend]

theorem idx_lt {s : State} {n : Nat} (hs : Shape n s) {w : Nat} {x : Worker} (h : s.workers[w]? = some x) {t : Task}
    (ht : t ∈ tasks x) : t.idx < s.items.length :=
  (List.getElem?_eq_some_iff.1 (hs.idx w x h t ht)).1

theorem shape_outer {W : World} {n : Nat} {s s' : State} (hs : Shape n s) (h : Outer W n s s') : Shape n s' := by
  cases h with
  | put v =>
    refine ⟨hs.lenP, hs.nextP, hs.lenW, hs.actorW, hs.span.put_snoc v, ?_, ?_, hs.sorted, hs.home, ?_, ?_, ?_⟩
    · intro id hid
      simp only [upd]
      simp only at hid
      rw [if_neg (by omega)]
      exact hs.fresh id (by omega)
    · intro w x hw t ht
      simp only
      rw [List.getElem?_append_left (idx_lt hs hw ht)]
      exact hs.idx w x hw t ht
    · intro t ht a c m e
      simp only [List.mem_append, List.mem_singleton, reduceCtorEq, or_false] at ht
      exact hs.target t ht a c m e
    · intro i t hit id hid
      simp only at hit ⊢
      rw [List.getElem?_append] at hit
      split at hit
      · obtain ⟨j, x, hj, hx, hm⟩ := hs.given i t hit id hid
        exact ⟨j, x, hj, by rw [List.getElem?_append_left (by omega)]; exact hx, hm⟩
      · have := List.mem_of_getElem? hit
        simp at this
    · intro i t hit
      simp only at hit
      rw [List.getElem?_append] at hit
      split at hit
      · exact hs.place i t hit
      · have := List.mem_of_getElem? hit
        simp at this
  | refuse k pool hp =>
    refine ⟨hp.1, hp.2, hs.lenW, hs.actorW, hs.span.grow (by simp), ?_, hs.idx, hs.sorted, hs.home, hs.target, hs.given, hs.place⟩
    intro id hid
    simp only at hid ⊢
    rw [delayAll_apply, if_neg (by rw [mem_newIds]; omega)]
    exact hs.fresh id (by omega)
  | task t w k pool hp hw hi ho ha hg ht =>
    have hget : ∀ (v : Nat) (y : Worker), (addTask s.workers w t)[v]? = some y →
        ∃ x, s.workers[v]? = some x ∧ (tasks y = tasks x ∨ (v = w ∧ tasks y = tasks x ++ [t])) := by
      intro v y hv
      rw [addTask_getElem] at hv
      obtain ⟨x, hx, rfl⟩ := Option.map_eq_some_iff.1 hv
      refine ⟨x, hx, ?_⟩
      by_cases e : w = v
      · subst e
        refine Or.inr ⟨rfl, ?_⟩
        simp only [if_true]
        exact tasks_push x t
      · simp [e]
    refine ⟨hp.1, hp.2, by simp [addTask, hs.lenW], hs.actorW, span_task hs.span ho ha, ?_, ?_, ?_, ?_, ?_, ?_, ?_⟩
    · intro id hid
      simp only at hid ⊢
      rw [delayAll_apply, if_neg (by rw [mem_newIds]; omega)]
      exact hs.fresh id (by omega)
    · intro v y hv u hu
      obtain ⟨x, hx, e⟩ := hget v y hv
      simp only
      rcases e with e | ⟨-, e⟩
      · rw [e] at hu
        rw [List.getElem?_append_left (idx_lt hs hx hu)]
        exact hs.idx v x hx u hu
      · rw [e, List.mem_append, List.mem_singleton] at hu
        rcases hu with hu | rfl
        · rw [List.getElem?_append_left (idx_lt hs hx hu)]
          exact hs.idx v x hx u hu
        · rw [hi]; simp
    · intro v y hv
      obtain ⟨x, hx, e⟩ := hget v y hv
      rcases e with e | ⟨-, e⟩
      · rw [e]; exact hs.sorted v x hx
      · rw [e, List.map_append, List.pairwise_append]
        refine ⟨hs.sorted v x hx, by simp, ?_⟩
        intro i hi' j hj
        simp only [List.map_cons, List.map_nil, List.mem_singleton] at hj
        obtain ⟨u, hu, rfl⟩ := List.mem_map.1 hi'
        rw [hj, hi]
        exact idx_lt hs hx hu
    · intro v y hv u hu a c m e'
      obtain ⟨x, hx, e⟩ := hget v y hv
      rcases e with e | ⟨rfl, e⟩
      · rw [e] at hu
        exact hs.home v x hx u hu a c m e'
      · rw [e, List.mem_append, List.mem_singleton] at hu
        rcases hu with hu | rfl
        · exact hs.home v x hx u hu a c m e'
        · exact ht a c m e'
    · intro u hu a c m e'
      simp only [List.mem_append, List.mem_singleton, Item.task.injEq] at hu
      rcases hu with hu | rfl
      · exact hs.target u hu a c m e'
      · obtain ⟨y, hy, -⟩ := ht a c m e'
        exact ⟨y, hy⟩
    · intro i u hiu id hid
      simp only at hiu ⊢
      rw [List.getElem?_append] at hiu
      split at hiu
      · obtain ⟨j, x, hj, hx, hm⟩ := hs.given i u hiu id hid
        exact ⟨j, x, hj, by rw [List.getElem?_append_left (by omega)]; exact hx, hm⟩
      · rename_i hge
        have hm := List.mem_of_getElem? hiu
        simp only [List.mem_singleton, Item.task.injEq] at hm
        subst hm
        obtain ⟨x, hx, hm⟩ := hg id hid
        obtain ⟨j, hj⟩ := List.getElem?_of_mem hx
        have hjl := (List.getElem?_eq_some_iff.1 hj).1
        exact ⟨j, x, by omega, by rw [List.getElem?_append_left hjl]; exact hj, hm⟩
    · intro i u hiu
      simp only at hiu
      rw [List.getElem?_append] at hiu
      split at hiu
      · exact hs.place i u hiu
      · rename_i hge
        obtain ⟨hl, e⟩ := List.getElem?_eq_some_iff.1 hiu
        simp only [List.length_singleton] at hl
        simp only [List.getElem_singleton, Item.task.injEq] at e
        subst e
        omega
  | admin pool actors hp h1 h2 =>
    refine ⟨hp.1, hp.2, hs.lenW, ?_, hs.span, hs.fresh, hs.idx, hs.sorted, ?_, ?_, hs.given, hs.place⟩
    · intro a y hy
      rcases h1 a y hy with ⟨x, hx, e, -⟩ | ⟨-, -, hlt⟩
      · rw [← e]; exact hs.actorW a x hx
      · exact hlt
    · intro v x hv t ht a c m e
      obtain ⟨y, hy, e'⟩ := hs.home v x hv t ht a c m e
      obtain ⟨z, hz, e''⟩ := h2 a y hy
      exact ⟨z, hz, e''.trans e'⟩
    · intro t ht a c m e
      obtain ⟨y, hy⟩ := hs.target t ht a c m e
      obtain ⟨z, hz, -⟩ := h2 a y hy
      exact ⟨z, hz⟩

theorem todoOk_outer {W : World} {n : Nat} {s s' : State} (ht : TodoOk s) (h : Outer W n s s') : TodoOk s' := by
  cases h with
  | put v => exact ht
  | refuse k pool hp => exact ht
  | admin pool actors hp h1 h2 => exact ht
  | task t w k pool hp hw hi ho ha hg htt =>
    intro v queue u todo d hv
    simp only at hv
    rw [addTask_getElem] at hv
    obtain ⟨x, hx, e⟩ := Option.map_eq_some_iff.1 hv
    by_cases hwv : w = v
    · rw [if_pos hwv] at e
      obtain ⟨q, c, d'⟩ := x
      simp only [Worker.mk.injEq] at e
      obtain ⟨-, rfl, rfl⟩ := e
      exact ht v _ u todo _ hx
    · rw [if_neg hwv] at e
      subst e
      exact ht v _ u todo _ hx

theorem shape_step {W : World} {n : Nat} {s s' : State} {a : Act} (hs : Shape n s) (ht : TodoOk s) (h : step W s a = some s') :
    Shape n s' ∧ TodoOk s' := by
  cases ha : a.byWorker with
  | none => exact ⟨shape_outer hs (outer_of_step hs ha h), todoOk_outer ht (outer_of_step hs ha h)⟩
  | some w => exact ⟨shape_inner hs ht (inner_of_step ha h), todoOk_inner ht (inner_of_step ha h)⟩

theorem todoOk_init (n : Nat) : TodoOk (State.init n) := by
  intro w queue t todo d h
  simp only [State.init, List.getElem?_replicate] at h
  split at h
  · simp at h
  · cases h

end Verif.Pymp
