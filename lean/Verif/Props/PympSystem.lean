import Verif.Model.Pymp
import Verif.Lemmas.PympManager
import Verif.Props.Pymp

/-! Property C27 for whole programs of the multiprocessing backend: functions, actors and their methods. -/
namespace Verif.Props
open Verif.Pymp

/-- The workers of the actors that still exist. -/
def occupiedWorkers (s : State) : List Nat := (s.actors.filter (·.live)).map (·.worker)

private abbrev PoolOk (n : Nat) (s : State) : Prop := PympPool.Inv n ⟨s.pool, occupiedWorkers s⟩

private theorem pool_perm {n : Nat} {p : PympPool.Pool} {l l' : List Nat} (h : PympPool.Inv n ⟨p, l⟩) (hp : l.Perm l') :
    PympPool.Inv n ⟨p, l'⟩ where
  len := h.len
  nextLt := h.nextLt
  flag i := (h.flag i).trans hp.mem_iff
  nodup := hp.nodup_iff.1 h.nodup

private theorem occupied_drop {l : List Actor} {a : Nat} {x : Actor} (h : l[a]? = some x) (hx : x.live = true) :
    ((l.filter (·.live)).map (·.worker)).Perm
      (x.worker :: ((l.set a { x with live := false }).filter (·.live)).map (·.worker)) := by
  induction l generalizing a with
  | nil => simp at h
  | cons y l ih =>
    cases a with
    | zero =>
      simp only [List.getElem?_cons_zero, Option.some.injEq] at h
      subst h
      simp [hx]
    | succ a =>
      have := ih (a := a) (by simpa using h)
      simp only [List.set_cons_succ, List.filter_cons]
      split
      · simp only [List.map_cons]
        exact (List.Perm.cons _ this).trans (List.Perm.swap _ _ _)
      · exact this

private theorem occupied_record (l : List Actor) (args : List Val) (t : Target) :
    ((record l args t).filter (·.live)).map (·.worker) = (l.filter (·.live)).map (·.worker) := by
  cases t with
  | fn f => rfl
  | method a c m =>
    simp only [record]
    induction l generalizing a with
    | nil => simp
    | cons y l ih =>
      cases a with
      | zero => simp only [List.modify_zero_cons, List.filter_cons]; split <;> simp
      | succ a => simp only [List.modify_succ_cons, List.filter_cons]; split <;> simp [ih]

private theorem pool_step {W : World} {n : Nat} {s s' : State} {a : Act} (hi : PoolOk n s) (h : step W s a = some s') : PoolOk n s' := by
  have hn : s.pool.nextId < s.pool.grabbed.length ∨ s.pool.grabbed.length = 0 := by rw [hi.len]; exact hi.nextLt
  cases a with
  | put v => simp only [step, Option.some.injEq] at h; subst h; exact hi
  | submit f args k =>
    have hsub := PympPool.inv_step hi .submit
    simp only [PympPool.State.step] at hsub
    simp only [step] at h
    split at h
    · split at h <;> rename_i w hw
      · simp only [Option.some.injEq] at h; subst h
        split at hsub <;> rename_i i p hp <;> rw [hp] at hw ⊢ <;> first | exact hsub | cases hw
      · simp only [Option.some.injEq] at h; subst h
        split at hsub <;> rename_i i p hp <;> rw [hp] at hw ⊢ <;> first | exact hsub | cases hw
    · cases h
  | create c =>
    have hc := PympPool.inv_step hi .create
    simp only [PympPool.State.step] at hc
    simp only [step] at h
    split at h
    · cases h; exact hi
    · rename_i w hw
      cases h
      split at hc <;> rename_i i p hp <;> rw [hp] at hw
      · cases hw
        simpa [PoolOk, occupiedWorkers, hp] using hc
      · cases hw
  | method a m args k =>
    simp only [step] at h
    split at h
    · cases h
    · split at h
      · cases h; exact hi
      · cases h
  | drop a =>
    simp only [step] at h
    split at h
    · cases h
    · rename_i x hx
      split at h
      · rename_i hl
        cases h
        exact PympPool.inv_step (pool_perm hi (occupied_drop hx hl)) (.drop 0)
      · cases h
  | take w =>
    simp only [step] at h
    split at h
    · cases h; exact hi
    · cases h
  | fetch w =>
    simp only [step] at h
    repeat' split at h
    all_goals first | cases h | skip
    all_goals exact hi
  | finish w =>
    simp only [step] at h
    have hr : ∀ args t, PympPool.Inv n ⟨s.pool, ((record s.actors args t).filter (·.live)).map (·.worker)⟩ := fun args t => by
      rw [occupied_record]; exact hi
    repeat' split at h
    all_goals first | cases h | skip
    all_goals exact hr _ _
  | write w =>
    simp only [step] at h
    repeat' split at h
    all_goals first | cases h | skip
    all_goals exact hi

private theorem pool_run {W : World} {n : Nat} : ∀ (acts : List Act) {s s' : State}, PoolOk n s → run W s acts = some s' → PoolOk n s'
  | [], _, _, hi, h => by cases h; exact hi
  | a :: as, s, s', hi, h => by
    simp only [run] at h
    split at h
    · cases h
    · rename_i t ht
      exact pool_run as (pool_step hi ht) h

/-- C27 for whole programs: in every program of functions, actors, method calls and drops, and whatever the workers do in between, the
existing actors have different workers, exactly their workers are taken, a function never gets the worker of an existing actor, and a
new actor never does. -/
theorem C27_programs (W : World) (n : Nat) (acts : List Act) (s : State) (h : run W (State.init n) acts = some s) :
    ((s.actors.filter (·.live)).map (·.worker)).Nodup ∧
    (∀ w, s.pool.grabbed[w]? = some true ↔ ∃ x ∈ s.actors, x.live = true ∧ x.worker = w) ∧
    (∀ f args k s', step W s (.submit f args k) = some s' →
      (s'.workers = s.workers ∧ ∀ w < n, ∃ x ∈ s.actors, x.live = true ∧ x.worker = w) ∨
      ∃ w t, w < n ∧ s'.workers = s.workers.modify w (fun x => { x with queue := x.queue ++ [t] }) ∧
        ∀ x ∈ s.actors, x.live = true → x.worker ≠ w) ∧
    (∀ c s', step W s (.create c) = some s' →
      (s' = s ∧ ∀ w < n, ∃ x ∈ s.actors, x.live = true ∧ x.worker = w) ∨
      ∃ y, y.worker < n ∧ y.live = true ∧ s'.actors = s.actors ++ [y] ∧ ∀ x ∈ s.actors, x.live = true → x.worker ≠ y.worker) := by
  have hi : PoolOk n s := pool_run acts (PympPool.inv_init n) h
  have hocc : ∀ w, w ∈ occupiedWorkers s ↔ ∃ x ∈ s.actors, x.live = true ∧ x.worker = w := by
    intro w
    simp only [occupiedWorkers, List.mem_map, List.mem_filter]
    exact ⟨fun ⟨x, hx, e⟩ => ⟨x, hx.1, hx.2, e⟩, fun ⟨x, hx, hl, e⟩ => ⟨x, ⟨hx, hl⟩, e⟩⟩
  have hn : s.pool.nextId < s.pool.grabbed.length ∨ s.pool.grabbed.length = 0 := by rw [hi.len]; exact hi.nextLt
  obtain ⟨h1, h2, h3, h4⟩ := PympPool.submit_spec s.pool hn
  have hlen : s.pool.grabbed.length = n := hi.len
  have hfree : ∀ i, s.pool.grabbed[i]? = some false → i < n ∧ ∀ x ∈ s.actors, x.live = true → x.worker ≠ i := by
    intro i hf
    refine ⟨by rw [← hlen]; exact (List.getElem?_eq_some_iff.1 hf).1, fun x hx hl e => ?_⟩
    have := (hi.flag i).2 ((hocc i).2 ⟨x, hx, hl, e⟩)
    rw [show (PympPool.State.mk s.pool (occupiedWorkers s)).pool.grabbed[i]? = s.pool.grabbed[i]? from rfl, hf] at this
    cases this
  have hfull : (∀ i < s.pool.grabbed.length, s.pool.grabbed[i]? = some true) →
      ∀ w < n, ∃ x ∈ s.actors, x.live = true ∧ x.worker = w := fun hall w hw =>
    (hocc w).1 ((hi.flag w).1 (hall w (by rw [hlen]; exact hw)))
  refine ⟨hi.nodup, fun w => (hi.flag w).trans (hocc w), fun f args k s' hs => ?_, fun c s' hs => ?_⟩
  · simp only [step] at hs
    split at hs
    · split at hs <;> rename_i hw
      · cases hs; exact .inl ⟨rfl, hfull (h4 hw)⟩
      · rename_i w
        cases hs
        have := hfree w (h3 w hw)
        exact .inr ⟨w, _, this.1, rfl, this.2⟩
    · cases hs
  · simp only [step, PympPool.Pool.grab] at hs
    cases hf : PympPool.firstFree s.pool.grabbed with
    | none =>
      rw [hf] at hs
      simp only [Option.some.injEq] at hs
      exact .inl ⟨hs.symm, hfull (PympPool.firstFree_none hf)⟩
    | some i =>
      rw [hf] at hs
      simp only [Option.some.injEq] at hs
      subst hs
      have := hfree i (PympPool.firstFree_some hf)
      exact .inr ⟨_, this.1, rfl, rfl, this.2⟩

-- two actors on two workers, one is dropped: its worker gets the next task
example : ((run pympWorld (State.init 2) [.create 0, .create 0, .submit 7 [] 1, .drop 0, .submit 7 [] 1, .method 1 3 [] 1]).map fun s =>
    decide (s.workers.map (fun x => x.queue.length) = [1, 1] ∧ s.pool.grabbed = [false, true])) = some true := by decide +kernel

end Verif.Props
