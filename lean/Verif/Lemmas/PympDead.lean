import Verif.Lemmas.PympLive

/-! A worker of the multiprocessing backend dies of a call whose result is too short; what it leaves undone comes later. -/
namespace Verif.Pymp
open Verif.Spec.Pymp

/-- A dead worker was ended by a call before all calls that are left in its queue. -/
def Ended (W : World) (s : State) : Prop :=
  ∀ (w : Nat) (x : Worker), s.workers[w]? = some x → x.dead = true →
    ∃ u, s.items[u.idx]? = some (.task u) ∧ ¬ FitsT W u ∧ ∀ t ∈ tasks x, u.idx < t.idx

theorem ended_init (W : World) (n : Nat) : Ended W (State.init n) := by
  intro w x h hd
  simp only [State.init, List.getElem?_replicate] at h
  split at h
  · simp only [Option.some.injEq] at h; subst h; cases hd
  · cases h

theorem ended_change {W : World} {s s' : State} {w : Nat} {x x' : Worker} (hl : Ended W s) (h : s.workers[w]? = some x)
    (hw : s'.workers = s.workers.set w x') (hi : s'.items = s.items) (hd : x'.dead = false) : Ended W s' := by
  intro v y hy hdead
  rw [hw, set_getElem h] at hy
  rw [hi]
  split at hy
  · simp only [Option.some.injEq] at hy
    subst hy
    rw [hd] at hdead
    cases hdead
  · exact hl v y hy hdead

theorem ended_inner {W : World} {n : Nat} {s s' : State} {w : Nat} (hs : Shape n s) (hl : Ended W s) (h : Inner W s w s') :
    Ended W s' := by
  cases h with
  | take h => exact ended_change hl h rfl rfl rfl
  | start h => exact ended_change hl h rfl rfl rfl
  | lit h => exact ended_change hl h rfl rfl rfl
  | value h _ _ => exact ended_change hl h rfl rfl rfl
  | error h _ _ => exact ended_change hl h rfl rfl rfl
  | raised h _ => exact ended_change hl h rfl rfl rfl
  | returned h _ _ => exact ended_change hl h rfl rfl rfl
  | write h => exact ended_change hl h rfl rfl rfl
  | idle h => exact ended_change hl h rfl rfl rfl
  | dies h hc hd =>
    rename_i queue t args v items
    rw [callTarget_apply] at hc
    intro v' y hy hdead
    simp only [State.setWorker] at hy
    rw [set_getElem h] at hy
    split at hy
    · simp only [Option.some.injEq] at hy
      subst hy
      refine ⟨t, hs.idx w _ h t (by simp [tasks, held]), fun hf => stored_fits (hf _ _ _ _ hc) hd, fun u hu => ?_⟩
      have := hs.sorted w _ h
      simp only [tasks, held, List.cons_append, List.nil_append, List.map_cons, List.pairwise_cons, List.mem_map,
        forall_exists_index, and_imp, forall_apply_eq_imp_iff₂] at this
      exact this.1 u (by simpa [tasks, held] using hu)
    · exact hl v' y hy hdead

theorem ended_outer {W : World} {n : Nat} {s s' : State} (hl : Ended W s) (h : Outer W n s s') : Ended W s' := by
  have grow : ∀ {i : Nat} {u : Task} {l : List Item}, s.items[i]? = some (.task u) → (s.items ++ l)[i]? = some (.task u) := by
    intro i u l hi
    have hlt : i < s.items.length := (List.getElem?_eq_some_iff.1 hi).1
    rw [List.getElem?_append_left hlt]
    exact hi
  cases h with
  | put v =>
    intro w x hx hd
    obtain ⟨u, h1, h2, h3⟩ := hl w x hx hd
    exact ⟨u, grow h1, h2, h3⟩
  | refuse k pool hp => exact hl
  | task t w k pool hp hw hi ho ha hg ht =>
    intro v y hy hd
    simp only at hy
    rw [addTask_getElem] at hy
    obtain ⟨x, hx, rfl⟩ := Option.map_eq_some_iff.1 hy
    by_cases e : w = v
    · simp only [e, if_true] at hd ⊢
      obtain ⟨u, h1, h2, h3⟩ := hl v x hx hd
      refine ⟨u, grow h1, h2, fun t' ht' => ?_⟩
      rw [tasks_push] at ht'
      rcases List.mem_append.1 ht' with ht' | ht'
      · exact h3 t' ht'
      · rw [List.mem_singleton.1 ht', hi]
        exact (List.getElem?_eq_some_iff.1 h1).1
    · simp only [e, if_false] at hd ⊢
      obtain ⟨u, h1, h2, h3⟩ := hl v x hx hd
      exact ⟨u, grow h1, h2, h3⟩
  | admin pool actors hp h1 h2 => exact hl

theorem reach_ended {W : World} {n : Nat} {acts : List Act} : ∀ {s s' : State}, Shape n s → TodoOk s → Ended W s →
    run W s acts = some s' → Ended W s' := by
  induction acts with
  | nil =>
    intro s s' h1 h2 h3 h
    simp only [run, Option.some.injEq] at h
    subst h
    exact h3
  | cons a acts ih =>
    intro s s' h1 h2 h3 h
    simp only [run] at h
    split at h
    · cases h
    · rename_i s1 hs1
      obtain ⟨k1, k2⟩ := shape_step h1 h2 hs1
      refine ih k1 k2 ?_ h
      cases ha : a.byWorker with
      | none => exact ended_outer h3 (outer_of_step h1 ha hs1)
      | some w => exact ended_inner h1 h3 (inner_of_step ha hs1)

/-- If all calls up to a number fit and one of them is unfinished, some worker can make a step. -/
theorem progress_upto {W : World} {n : Nat} {s : State} (hs : Shape n s) (hl : Live W s) (he : Ended W s) (b : Nat)
    (hf : Fits W (s.items.take b)) : ∀ (k w : Nat) (x : Worker) (t : Task),
    s.workers[w]? = some x → t ∈ tasks x → t.idx = k → k < b → ∃ a s', a.byWorker ≠ none ∧ step W s a = some s' := by
  have hfit : ∀ i t, s.items[i]? = some (.task t) → i < b → FitsT W t := by
    intro i t hi hb
    refine hf t (List.mem_of_getElem? (i := i) ?_)
    rw [List.getElem?_take, if_pos hb]
    exact hi
  intro k
  induction k using Nat.strongRecOn with
  | ind k ih =>
    intro w x t hx ht hk hkb
    have hd : x.dead = false := by
      cases hd : x.dead with
      | false => rfl
      | true =>
        obtain ⟨u, h1, h2, h3⟩ := he w x hx hd
        exact absurd (hfit _ u h1 (by have := h3 t ht; omega)) h2
    obtain ⟨queue, cur, dead⟩ := x
    simp only at hd
    subst hd
    cases cur with
    | none =>
      cases queue with
      | nil => simp [tasks, held] at ht
      | cons u queue => exact ⟨.take w, _, by simp [Act.byWorker], by simp [step, hx]; rfl⟩
    | some p =>
      obtain ⟨u, ph⟩ := p
      have huk : u.idx ≤ k := by
        have := hs.sorted w _ hx
        simp only [tasks, held, List.cons_append, List.nil_append, List.map_cons, List.pairwise_cons, List.mem_map,
          forall_exists_index, and_imp, forall_apply_eq_imp_iff₂] at this
        simp only [tasks, held, List.cons_append, List.nil_append, List.mem_cons] at ht
        rcases ht with rfl | ht
        · omega
        · have := this.1 t ht; omega
      have humem : u ∈ tasks ⟨queue, some (u, ph), false⟩ := by simp [tasks, held]
      have hidx := hs.idx w _ hx u humem
      cases ph with
      | running vs =>
        refine ⟨.finish w, ?_⟩
        simp only [step, hx]
        cases callTarget W (histOf s.actors u.target) vs u.target with
        | raise e => exact ⟨_, by simp [Act.byWorker], rfl⟩
        | ok v items =>
          simp only
          cases stored u.outs v items with
          | none => exact ⟨_, by simp [Act.byWorker], rfl⟩
          | some todo => exact ⟨_, by simp [Act.byWorker], rfl⟩
      | write todo =>
        cases todo with
        | nil => exact ⟨.write w, _, by simp [Act.byWorker], by simp [step, hx]; rfl⟩
        | cons p todo => obtain ⟨o, v⟩ := p; exact ⟨.write w, _, by simp [Act.byWorker], by simp [step, hx]; rfl⟩
      | fetch done rest =>
        cases rest with
        | nil => exact ⟨.fetch w, _, by simp [Act.byWorker], by simp [step, hx]; rfl⟩
        | cons arg rest =>
          cases arg with
          | lit v => exact ⟨.fetch w, _, by simp [Act.byWorker], by simp [step, hx]; rfl⟩
          | ref id =>
            have hfetch : Valued s id → ∃ a s', a.byWorker ≠ none ∧ step W s a = some s' := by
              rintro ⟨v, hv⟩
              refine ⟨.fetch w, ?_⟩
              simp only [step, hx, hv]
              cases getVal W v with
              | ok u => exact ⟨_, by simp [Act.byWorker], rfl⟩
              | error e => exact ⟨_, by simp [Act.byWorker], rfl⟩
            obtain ⟨pre, hpre⟩ := hl.fetch w _ hx u done _ rfl
            obtain ⟨j, y, hj, hy, hm⟩ := hs.given u.idx u hidx id (by rw [hpre]; simp)
            cases y with
            | put i v =>
              simp only [Item.refs, List.mem_singleton] at hm
              subst hm
              exact hfetch (hl.puts id v (List.mem_of_getElem? hy))
            | task t' =>
              have hmem := List.mem_of_getElem? hy
              rcases hl.filled t' hmem with ⟨w', x', hx', hm'⟩ | hv
              · exact ih j (by omega) w' x' t' hx' hm' (hs.place j t' hy) (by omega)
              · exact hfetch (hv id hm (fitsAt_of_fitsT (hfit j t' hy (by omega)) hm))

end Verif.Pymp
