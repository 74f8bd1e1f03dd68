import Verif.Lemmas.PympValues

/-! Helper lemmas about runs of the multiprocessing backend: progress. -/
namespace Verif.Pymp
open Verif.Spec.Pymp

/-- The task gives as many values as announced. -/
def FitsT (W : World) (t : Task) : Prop :=
  ∀ hist vs v l, apply W hist vs t.target = .ok v l → t.outs.length ≤ 1 ∨ ∃ xs, l = some xs ∧ t.outs.length ≤ xs.length

/-- The task gives a value for this reference. -/
def FitsAt (W : World) (t : Task) (o : Nat) : Prop :=
  ∀ hist vs v l, apply W hist vs t.target = .ok v l → t.outs.length ≤ 1 ∨ ∃ xs, l = some xs ∧ o ∈ t.outs.take xs.length

theorem fitsAt_of_fitsT {W : World} {t : Task} {o : Nat} (h : FitsT W t) (ho : o ∈ t.outs) : FitsAt W t o := by
  intro hist vs v l hc
  rcases h hist vs v l hc with h | ⟨xs, h1, h2⟩
  · exact Or.inl h
  · exact Or.inr ⟨xs, h1, by rw [List.take_of_length_le h2]; exact ho⟩

/-- The reference has a value. -/
def Valued (s : State) (o : Nat) : Prop := ∃ v, s.store o = some (.val v)

/-- Unfinished tasks are with some worker; the others have filled their references. -/
structure Live (W : World) (s : State) : Prop where
  puts : ∀ id v, Item.put id v ∈ s.items → Valued s id
  filled : ∀ t, Item.task t ∈ s.items →
    (∃ (w : Nat) (x : Worker), s.workers[w]? = some x ∧ t ∈ tasks x) ∨ ∀ o ∈ t.outs, FitsAt W t o → Valued s o
  todo : ∀ (w : Nat) (x : Worker), s.workers[w]? = some x → ∀ t l, x.cur = some (t, .write l) →
    ∀ o ∈ t.outs, FitsAt W t o → (∃ v, (o, v) ∈ l) ∨ Valued s o
  fetch : ∀ (w : Nat) (x : Worker), s.workers[w]? = some x → ∀ t done rest, x.cur = some (t, .fetch done rest) → ∃ pre, t.args = pre ++ rest
  alive : Fits W s.items → ∀ (w : Nat) (x : Worker), s.workers[w]? = some x → x.dead = false

theorem live_init (W : World) (n : Nat) : Live W (State.init n) := by
  have hw : ∀ (w : Nat) (x : Worker), (State.init n).workers[w]? = some x → x = ⟨[], none, false⟩ := by
    intro w x h
    simp only [State.init, List.getElem?_replicate] at h
    split at h
    · simp only [Option.some.injEq] at h; exact h.symm
    · cases h
  refine ⟨by simp [State.init], by simp [State.init], ?_, ?_, ?_⟩
  · intro w x h t l hc; rw [hw w x h] at hc; cases hc
  · intro w x h t l r hc; rw [hw w x h] at hc; cases hc
  · intro _ w x h; rw [hw w x h]

theorem live_change {W : World} {s s' : State} {w : Nat} {x x' : Worker} (hl : Live W s) (h : s.workers[w]? = some x)
    (hw : s'.workers = s.workers.set w x') (hi : s'.items = s.items) (mono : ∀ o, Valued s o → Valued s' o)
    (htasks : tasks x' = tasks x ∨ ∃ t, tasks x = t :: tasks x' ∧ (∀ o ∈ t.outs, FitsAt W t o → Valued s' o))
    (htodo : ∀ t l, x'.cur = some (t, .write l) → ∀ o ∈ t.outs, FitsAt W t o → (∃ v, (o, v) ∈ l) ∨ Valued s' o)
    (hfetch : ∀ t done rest, x'.cur = some (t, .fetch done rest) → ∃ pre, t.args = pre ++ rest)
    (halive : Fits W s.items → x'.dead = false) : Live W s' := by
  refine ⟨?_, ?_, ?_, ?_, ?_⟩
  · intro id v hm
    rw [hi] at hm
    exact mono _ (hl.puts id v hm)
  · intro t ht
    rw [hi] at ht
    rcases hl.filled t ht with ⟨v, y, hy, hm⟩ | hv
    · by_cases e : w = v
      · subst e
        rw [h] at hy
        simp only [Option.some.injEq] at hy
        subst hy
        rcases htasks with e | ⟨u, e, hu⟩
        · exact Or.inl ⟨w, x', by rw [hw, set_getElem h, if_pos rfl], by rw [e]; exact hm⟩
        · rw [e, List.mem_cons] at hm
          rcases hm with rfl | hm
          · exact Or.inr hu
          · exact Or.inl ⟨w, x', by rw [hw, set_getElem h, if_pos rfl], hm⟩
      · exact Or.inl ⟨v, y, by rw [hw, set_getElem h, if_neg e]; exact hy, hm⟩
    · exact Or.inr fun o ho hf => mono o (hv o ho hf)
  · intro v y hy t l hc o ho hf
    rw [hw, set_getElem h] at hy
    split at hy
    · simp only [Option.some.injEq] at hy
      subst hy
      exact htodo t l hc o ho hf
    · exact (hl.todo v y hy t l hc o ho hf).imp id (mono o)
  · intro v y hy t done rest hc
    rw [hw, set_getElem h] at hy
    split at hy
    · simp only [Option.some.injEq] at hy
      subst hy
      exact hfetch t done rest hc
    · exact hl.fetch v y hy t done rest hc
  · intro hf v y hy
    rw [hi] at hf
    rw [hw, set_getElem h] at hy
    split at hy
    · simp only [Option.some.injEq] at hy
      subst hy
      exact halive hf
    · exact hl.alive hf v y hy

theorem failed_all {outs : List Nat} {e o : Nat} (h : o ∈ outs) : ∃ v, (o, v) ∈ failed outs e :=
  ⟨.exc e, List.mem_map.2 ⟨o, h, rfl⟩⟩

theorem zip_all {α : Type} : ∀ {outs : List Nat} {l : List α} {o : Nat}, o ∈ outs.take l.length → ∃ v, (o, v) ∈ outs.zip l
  | [], _, _, h => by simp at h
  | _ :: _, [], _, h => by simp at h
  | a :: outs, x :: l, o, h => by
    rw [List.length_cons, List.take_succ_cons] at h
    rcases List.mem_cons.1 h with rfl | h
    · exact ⟨x, by simp⟩
    · obtain ⟨v, hv⟩ := zip_all (outs := outs) (l := l) h
      exact ⟨v, by simp [hv]⟩

theorem stored_all {outs : List Nat} {v : Val} {items : Option (List Val)} {todo : List (Nat × Val)}
    (h : stored outs v items = some todo) {o : Nat} (hf : outs.length ≤ 1 ∨ ∃ xs, items = some xs ∧ o ∈ outs.take xs.length)
    (ho : o ∈ outs) : ∃ v, (o, v) ∈ todo := by
  match outs, items with
  | [], _ => simp at ho
  | [a], _ => simp [stored] at h; subst h; simp at ho; subst ho; exact ⟨v, by simp⟩
  | a :: b :: outs, none => simp [stored] at h
  | a :: b :: outs, some l =>
    simp only [stored, Option.map_some, Option.some.injEq] at h
    subst h
    rcases hf with hf | ⟨xs, e, hf⟩
    · simp at hf
    · simp only [Option.some.injEq] at e
      subst e
      exact zip_all hf

theorem stored_items {outs : List Nat} {v : Val} {items : Option (List Val)} (hf : outs.length ≤ 1 ∨ ∃ xs, items = some xs) :
    stored outs v items ≠ none := by
  match outs, items with
  | [], _ => simp [stored]
  | [a], _ => simp [stored]
  | a :: b :: outs, none => simp at hf
  | a :: b :: outs, some l => simp [stored]

theorem stored_fits {outs : List Nat} {v : Val} {items : Option (List Val)} (hf : outs.length ≤ 1 ∨ ∃ xs, items = some xs ∧ outs.length ≤ xs.length) :
    stored outs v items ≠ none := by
  match outs, items with
  | [], _ => simp [stored]
  | [a], _ => simp [stored]
  | a :: b :: outs, none => simp at hf
  | a :: b :: outs, some l => simp [stored]

theorem callTarget_apply (W : World) (hist : List (Nat × List Val)) (args : List Val) (t : Target) :
    callTarget W hist args t = apply W (fun _ => hist) args t := by
  cases t <;> rfl

theorem live_inner {W : World} {n : Nat} {s s' : State} {w : Nat} (hs : Shape n s) (hl : Live W s) (h : Inner W s w s') :
    Live W s' := by
  have nodead : ∀ {P : Prop}, false = true → P := by intro P h; cases h
  cases h with
  | take h =>
    refine live_change hl h rfl rfl (fun _ h => h) (Or.inl rfl) (by simp) ?_ (fun _ => rfl)
    intro t done rest e
    simp only [Option.some.injEq, Prod.mk.injEq, Phase.fetch.injEq] at e
    obtain ⟨rfl, rfl, rfl⟩ := e
    exact ⟨[], rfl⟩
  | start h => exact live_change hl h rfl rfl (fun _ h => h) (Or.inl rfl) (by simp) (by simp) (fun _ => rfl)
  | lit h =>
    refine live_change hl h rfl rfl (fun _ h => h) (Or.inl rfl) (by simp) ?_ (fun _ => rfl)
    intro t done rest e
    simp only [Option.some.injEq, Prod.mk.injEq, Phase.fetch.injEq] at e
    obtain ⟨rfl, rfl, rfl⟩ := e
    obtain ⟨pre, e⟩ := hl.fetch w _ h _ _ _ rfl
    exact ⟨pre ++ [_], by rw [e, List.append_assoc]; rfl⟩
  | value h hst hg =>
    refine live_change hl h rfl rfl (fun _ h => h) (Or.inl rfl) (by simp) ?_ (fun _ => rfl)
    intro t done rest e
    simp only [Option.some.injEq, Prod.mk.injEq, Phase.fetch.injEq] at e
    obtain ⟨rfl, rfl, rfl⟩ := e
    obtain ⟨pre, e⟩ := hl.fetch w _ h _ _ _ rfl
    exact ⟨pre ++ [_], by rw [e, List.append_assoc]; rfl⟩
  | error h hst hg =>
    refine live_change hl h rfl rfl (fun _ h => h) (Or.inl rfl) ?_ (by simp) (fun _ => rfl)
    intro t l e
    simp only [Option.some.injEq, Prod.mk.injEq, Phase.write.injEq] at e
    obtain ⟨rfl, rfl⟩ := e
    exact fun o ho _ => Or.inl (failed_all ho)
  | raised h hc =>
    refine live_change hl h rfl rfl (fun _ h => h) (Or.inl rfl) ?_ (by simp) (fun _ => rfl)
    intro t l e
    simp only [Option.some.injEq, Prod.mk.injEq, Phase.write.injEq] at e
    obtain ⟨rfl, rfl⟩ := e
    exact fun o ho _ => Or.inl (failed_all ho)
  | returned h hc hd =>
    refine live_change hl h rfl rfl (fun _ h => h) (Or.inl rfl) ?_ (by simp) (fun _ => rfl)
    intro t l e
    simp only [Option.some.injEq, Prod.mk.injEq, Phase.write.injEq] at e
    obtain ⟨rfl, rfl⟩ := e
    intro o ho hf
    rw [callTarget_apply] at hc
    exact Or.inl (stored_all hd (hf _ _ _ _ hc) ho)
  | dies h hc hd =>
    rename_i queue t args v items
    rw [callTarget_apply] at hc
    refine live_change hl h rfl rfl (fun _ h => h) (Or.inr ⟨t, rfl, ?_⟩) (by simp) (by simp) ?_
    · intro o ho hf
      refine absurd hd (stored_items ?_)
      rcases hf _ _ _ _ hc with h | ⟨xs, h, -⟩
      · exact Or.inl h
      · exact Or.inr ⟨xs, h⟩
    · intro hf
      have := List.mem_of_getElem? (hs.idx w _ h t (by simp [tasks, held]))
      exact absurd hd (stored_fits (hf t this _ _ _ _ hc))
  | write h =>
    rename_i queue t o v todo
    have mono : ∀ id, Valued s id → Valued { s.setWorker w ⟨queue, some (t, .write todo), false⟩ with store := upd s.store o (some (.val v)) } id := by
      rintro id ⟨u, hu⟩
      simp only [Valued, upd]
      split
      · exact ⟨v, rfl⟩
      · exact ⟨u, hu⟩
    refine live_change hl h rfl rfl mono (Or.inl rfl) ?_ (by simp) (fun _ => rfl)
    intro t' l e
    simp only [Option.some.injEq, Prod.mk.injEq, Phase.write.injEq] at e
    obtain ⟨rfl, rfl⟩ := e
    intro o' ho hf
    rcases hl.todo w _ h _ _ rfl o' ho hf with ⟨u, hu⟩ | hv
    · rcases List.mem_cons.1 hu with e | hu
      · simp only [Prod.mk.injEq] at e
        refine Or.inr ⟨v, ?_⟩
        simp [upd, e.1]
      · exact Or.inl ⟨u, hu⟩
    · exact Or.inr (mono o' hv)
  | idle h =>
    rename_i queue t
    refine live_change hl h rfl rfl (fun _ h => h) (Or.inr ⟨t, rfl, ?_⟩) (by simp) (by simp) (fun _ => rfl)
    intro o ho hf
    rcases hl.todo w _ h _ _ rfl o ho hf with ⟨u, hu⟩ | hv
    · simp at hu
    · exact hv

theorem valued_lt {n : Nat} {s : State} (hs : Shape n s) {o : Nat} (h : Valued s o) : o < s.next := by
  obtain ⟨v, hv⟩ := h
  apply Classical.byContradiction
  intro hc
  rw [hs.fresh o (by omega)] at hv
  cases hv

theorem live_outer {W : World} {n : Nat} {s s' : State} (hs : Shape n s) (hl : Live W s) (h : Outer W n s s') : Live W s' := by
  cases h with
  | put v =>
    have mono : ∀ o, Valued s o → Valued { s with store := upd s.store s.next (some (.val (putVal W v))), next := s.next + 1, items := s.items ++ [.put s.next v] } o := by
      intro o ho
      have := valued_lt hs ho
      obtain ⟨u, hu⟩ := ho
      exact ⟨u, by simp only [upd]; rw [if_neg (by omega)]; exact hu⟩
    refine ⟨?_, ?_, ?_, hl.fetch, ?_⟩
    · intro id u hm
      simp only [List.mem_append, List.mem_singleton, Item.put.injEq] at hm
      rcases hm with hm | ⟨rfl, -⟩
      · exact mono _ (hl.puts id u hm)
      · exact ⟨_, by simp [upd]; rfl⟩
    · intro t ht
      simp only [List.mem_append, List.mem_singleton, reduceCtorEq, or_false] at ht
      exact (hl.filled t ht).imp id fun h o ho hf => mono o (h o ho hf)
    · intro w x hx t l hc o ho hf
      exact (hl.todo w x hx t l hc o ho hf).imp id (mono o)
    · intro hf
      exact hl.alive fun t ht => hf t (by simp [ht])
  | refuse k pool hp =>
    have mono : ∀ o, Valued s o → Valued { s with store := delayAll s.store (newIds s k), next := s.next + k, pool := pool } o := by
      intro o ho
      have := valued_lt hs ho
      obtain ⟨u, hu⟩ := ho
      exact ⟨u, by simp only; rw [delayAll_apply, if_neg (by rw [mem_newIds]; omega)]; exact hu⟩
    exact ⟨fun id v hm => mono _ (hl.puts id v hm), fun t ht => (hl.filled t ht).imp id fun h o ho hf => mono o (h o ho hf),
      fun w x hx t l hc o ho hf => (hl.todo w x hx t l hc o ho hf).imp id (mono o), hl.fetch, hl.alive⟩
  | task t w k pool hp hw hi ho ha hg ht =>
    have mono : ∀ o, Valued s o → Valued { s with store := delayAll s.store (newIds s k), next := s.next + k, pool := pool, workers := addTask s.workers w t, items := s.items ++ [.task t] } o := by
      intro o ho
      have := valued_lt hs ho
      obtain ⟨u, hu⟩ := ho
      exact ⟨u, by simp only; rw [delayAll_apply, if_neg (by rw [mem_newIds]; omega)]; exact hu⟩
    have back : ∀ (v : Nat) (y : Worker), (addTask s.workers w t)[v]? = some y →
        ∃ x : Worker, s.workers[v]? = some x ∧ y.cur = x.cur ∧ y.dead = x.dead := by
      intro v y hy
      rw [addTask_getElem] at hy
      obtain ⟨x, hx, rfl⟩ := Option.map_eq_some_iff.1 hy
      refine ⟨x, hx, ?_⟩
      by_cases e : w = v <;> simp [e]
    refine ⟨?_, ?_, ?_, ?_, ?_⟩
    · intro id v hm
      simp only [List.mem_append, List.mem_singleton, reduceCtorEq, or_false] at hm
      exact mono _ (hl.puts id v hm)
    · intro u hu
      simp only [List.mem_append, List.mem_singleton, Item.task.injEq] at hu
      rcases hu with hu | rfl
      · rcases hl.filled u hu with ⟨v, x, hx, hm⟩ | h
        · refine Or.inl ⟨v, _, by simp only; rw [addTask_getElem, hx]; rfl, ?_⟩
          by_cases e : w = v
          · simp only [e, if_true]; rw [tasks_push]; exact List.mem_append_left _ hm
          · simp only [e, if_false]; exact hm
        · exact Or.inr fun o ho hf => mono o (h o ho hf)
      · have hlt : w < s.workers.length := by rw [hs.lenW]; exact hw
        refine Or.inl ⟨w, _, by simp only; rw [addTask_getElem, List.getElem?_eq_getElem hlt]; rfl, ?_⟩
        simp only [if_true]
        rw [tasks_push]
        simp
    · intro v y hy u l hc o ho hf
      obtain ⟨x, hx, e, -⟩ := back v y hy
      exact (hl.todo v x hx u l (e ▸ hc) o ho hf).imp id (mono o)
    · intro v y hy u done rest hc
      obtain ⟨x, hx, e, -⟩ := back v y hy
      exact hl.fetch v x hx u done rest (e ▸ hc)
    · intro hf v y hy
      obtain ⟨x, hx, -, e⟩ := back v y hy
      rw [e]
      exact hl.alive (fun u hu => hf u (by simp [hu])) v x hx
  | admin pool actors hp h1 h2 => exact ⟨hl.puts, hl.filled, hl.todo, hl.fetch, hl.alive⟩

theorem live_step {W : World} {n : Nat} {s s' : State} {a : Act} (hs : Shape n s) (hl : Live W s) (h : step W s a = some s') :
    Live W s' := by
  cases ha : a.byWorker with
  | none => exact live_outer hs hl (outer_of_step hs ha h)
  | some w => exact live_inner hs hl (inner_of_step ha h)

theorem items_step {W : World} {n : Nat} {s s' : State} {a : Act} (hs : Shape n s) (h : step W s a = some s') : s.items <+: s'.items := by
  cases ha : a.byWorker with
  | none =>
    cases outer_of_step hs ha h with
    | put v => exact List.prefix_append _ _
    | refuse => exact List.prefix_refl _
    | task => exact List.prefix_append _ _
    | admin => exact List.prefix_refl _
  | some w => rw [(frame_of_inner (inner_of_step ha h)).items]; exact List.prefix_refl _

/-! ## Runs -/

theorem run_append {W : World} (as bs : List Act) : ∀ s, run W s (as ++ bs) = (run W s as).bind fun s' => run W s' bs := by
  induction as with
  | nil => intro s; rfl
  | cons a as ih =>
    intro s
    simp only [List.cons_append, run]
    cases step W s a with
    | none => rfl
    | some s' => exact ih s'

/-- Facts that hold of every reachable state. -/
theorem reach {W : World} {n : Nat} {acts : List Act} : ∀ {s s' : State}, Shape n s → TodoOk s → Live W s → run W s acts = some s' →
    Shape n s' ∧ TodoOk s' ∧ Live W s' ∧ s.items <+: s'.items := by
  induction acts with
  | nil =>
    intro s s' h1 h2 h3 h
    simp only [run, Option.some.injEq] at h
    subst h
    exact ⟨h1, h2, h3, List.prefix_refl _⟩
  | cons a acts ih =>
    intro s s' h1 h2 h3 h
    simp only [run] at h
    split at h
    · cases h
    · rename_i s1 hs1
      obtain ⟨k1, k2⟩ := shape_step h1 h2 hs1
      obtain ⟨r1, r2, r3, r4⟩ := ih k1 k2 (live_step h1 h3 hs1) h
      exact ⟨r1, r2, r3, (items_step h1 hs1).trans r4⟩

theorem reach_items {W : World} {n : Nat} {acts : List Act} : ∀ {s s' : State}, Shape n s → TodoOk s → run W s acts = some s' →
    s.items <+: s'.items := by
  induction acts with
  | nil =>
    intro s s' h1 h2 h
    simp only [run, Option.some.injEq] at h
    subst h
    exact List.prefix_refl _
  | cons a acts ih =>
    intro s s' h1 h2 h
    simp only [run] at h
    split at h
    · cases h
    · rename_i s1 hs1
      obtain ⟨k1, k2⟩ := shape_step h1 h2 hs1
      exact (items_step h1 hs1).trans (ih k1 k2 h)

theorem reach_vals {W : World} {n : Nat} {acts : List Act} : ∀ {s s' : State}, Shape n s → TodoOk s → Vals W s →
    run W s acts = some s' → Vals W s' := by
  induction acts with
  | nil =>
    intro s s' h1 h2 h3 h
    simp only [run, Option.some.injEq] at h
    subst h
    exact h3
  | cons a acts ih =>
    intro s s' h1 h2 h3 h
    simp only [run] at h
    split at h
    · cases h
    · rename_i s1 hs1
      obtain ⟨k1, k2⟩ := shape_step h1 h2 hs1
      refine ih k1 k2 ?_ h
      cases ha : a.byWorker with
      | none => exact vals_outer h1 h3 (outer_of_step h1 ha hs1)
      | some w => exact vals_inner h1 h3 (inner_of_step ha hs1)

/-! ## Progress -/

theorem progress {W : World} {n : Nat} {s : State} (hs : Shape n s) (hl : Live W s) (hf : Fits W s.items) : ∀ (k w : Nat) (x : Worker) (t : Task),
    s.workers[w]? = some x → t ∈ tasks x → t.idx = k → ∃ a s', a.byWorker ≠ none ∧ step W s a = some s' := by
  intro k
  induction k using Nat.strongRecOn with
  | ind k ih =>
    intro w x t hx ht hk
    have hd := hl.alive hf w x hx
    obtain ⟨queue, cur, dead⟩ := x
    simp only at hd
    subst hd
    cases cur with
    | none =>
      cases queue with
      | nil => simp [tasks, held] at ht
      | cons u queue => exact ⟨.take w, _, by simp [Act.byWorker], by simp [step, hx]; rfl⟩
    | some p =>
      obtain ⟨u, ph⟩ := p
      have huk : u.idx ≤ k := by
        have := hs.sorted w _ hx
        simp only [tasks, held, List.cons_append, List.nil_append, List.map_cons, List.pairwise_cons, List.mem_map,
          forall_exists_index, and_imp, forall_apply_eq_imp_iff₂] at this
        simp only [tasks, held, List.cons_append, List.nil_append, List.mem_cons] at ht
        rcases ht with rfl | ht
        · omega
        · have := this.1 t ht; omega
      have humem : u ∈ tasks ⟨queue, some (u, ph), false⟩ := by simp [tasks, held]
      have hidx := hs.idx w _ hx u humem
      cases ph with
      | running vs =>
        refine ⟨.finish w, ?_⟩
        simp only [step, hx]
        cases callTarget W (histOf s.actors u.target) vs u.target with
        | raise e => exact ⟨_, by simp [Act.byWorker], rfl⟩
        | ok v items =>
          simp only
          cases stored u.outs v items with
          | none => exact ⟨_, by simp [Act.byWorker], rfl⟩
          | some todo => exact ⟨_, by simp [Act.byWorker], rfl⟩
      | write todo =>
        cases todo with
        | nil => exact ⟨.write w, _, by simp [Act.byWorker], by simp [step, hx]; rfl⟩
        | cons p todo => obtain ⟨o, v⟩ := p; exact ⟨.write w, _, by simp [Act.byWorker], by simp [step, hx]; rfl⟩
      | fetch done rest =>
        cases rest with
        | nil => exact ⟨.fetch w, _, by simp [Act.byWorker], by simp [step, hx]; rfl⟩
        | cons arg rest =>
          cases arg with
          | lit v => exact ⟨.fetch w, _, by simp [Act.byWorker], by simp [step, hx]; rfl⟩
          | ref id =>
            have hfetch : Valued s id → ∃ a s', a.byWorker ≠ none ∧ step W s a = some s' := by
              rintro ⟨v, hv⟩
              refine ⟨.fetch w, ?_⟩
              simp only [step, hx, hv]
              cases getVal W v with
              | ok u => exact ⟨_, by simp [Act.byWorker], rfl⟩
              | error e => exact ⟨_, by simp [Act.byWorker], rfl⟩
            obtain ⟨pre, hpre⟩ := hl.fetch w _ hx u done _ rfl
            obtain ⟨j, y, hj, hy, hm⟩ := hs.given u.idx u hidx id (by rw [hpre]; simp)
            cases y with
            | put i v =>
              simp only [Item.refs, List.mem_singleton] at hm
              subst hm
              exact hfetch (hl.puts id v (List.mem_of_getElem? hy))
            | task t' =>
              have hmem := List.mem_of_getElem? hy
              rcases hl.filled t' hmem with ⟨w', x', hx', hm'⟩ | hv
              · exact ih j (by omega) w' x' t' hx' hm' (hs.place j t' hy)
              · exact hfetch (hv id hm (fitsAt_of_fitsT (hf t' hmem) hm))

/-! ## Termination -/

/-- Bound of the steps left for the task in hand. -/
def phaseCost (t : Task) : Phase → Nat
  | .fetch _ rest => rest.length + t.outs.length + 4
  | .running _ => t.outs.length + 3
  | .write todo => todo.length + 1

/-- Bound of the steps left for the task in hand of a worker. -/
def curCost : Option (Task × Phase) → Nat
  | none => 0
  | some (t, ph) => phaseCost t ph

/-- Bound of the steps of a worker. -/
def cost (x : Worker) : Nat := curCost x.cur + (x.queue.map fun t => t.args.length + t.outs.length + 5).sum

/-- Bound of the steps of all workers. -/
def work (s : State) : Nat := (s.workers.map cost).sum

theorem sum_set {l : List Worker} {w : Nat} {x x' : Worker} (h : l[w]? = some x) (hc : cost x' < cost x) :
    ((l.set w x').map cost).sum < (l.map cost).sum := by
  induction l generalizing w with
  | nil => simp at h
  | cons y l ih =>
    cases w with
    | zero =>
      simp only [List.getElem?_cons_zero, Option.some.injEq] at h
      subst h
      simp only [List.set_cons_zero, List.map_cons, List.sum_cons]
      omega
    | succ w =>
      simp only [List.getElem?_cons_succ] at h
      have := ih h
      simp only [List.set_cons_succ, List.map_cons, List.sum_cons]
      omega

theorem stored_length {outs : List Nat} {v : Val} {items : Option (List Val)} {todo : List (Nat × Val)}
    (h : stored outs v items = some todo) : todo.length ≤ outs.length := by
  match outs, items with
  | [], _ => simp [stored] at h; subst h; simp
  | [a], _ => simp [stored] at h; subst h; simp
  | a :: b :: outs, none => simp [stored] at h
  | a :: b :: outs, some l =>
    simp only [stored, Option.map_some, Option.some.injEq] at h
    subst h
    rw [List.length_zip]
    omega

theorem work_inner {W : World} {s s' : State} {w : Nat} (h : Inner W s w s') : work s' < work s := by
  cases h with
  | take h => exact sum_set h (by simp [cost, curCost, phaseCost])
  | start h => exact sum_set h (by simp [cost, curCost, phaseCost])
  | lit h => exact sum_set h (by simp [cost, curCost, phaseCost])
  | value h _ _ => exact sum_set h (by simp [cost, curCost, phaseCost])
  | error h _ _ => exact sum_set h (by simp [cost, curCost, phaseCost, failed]; omega)
  | raised h _ => exact sum_set h (by simp [cost, curCost, phaseCost, failed])
  | returned h _ hd => exact sum_set h (by have := stored_length hd; simp [cost, curCost, phaseCost]; omega)
  | dies h _ _ => exact sum_set h (by simp [cost, curCost, phaseCost])
  | write h => exact sum_set h (by simp [cost, curCost, phaseCost])
  | idle h => exact sum_set h (by simp [cost, curCost, phaseCost])

theorem run_bound {W : World} {acts : List Act} (ha : ∀ a ∈ acts, a.byWorker ≠ none) : ∀ {s s' : State}, run W s acts = some s' →
    acts.length + work s' ≤ work s := by
  induction acts with
  | nil => intro s s' h; simp only [run, Option.some.injEq] at h; subst h; simp
  | cons a acts ih =>
    intro s s' h
    simp only [run] at h
    split at h
    · cases h
    · rename_i s1 hs1
      have h1 := ih (fun b hb => ha b (List.mem_cons_of_mem _ hb)) h
      obtain ⟨w, hw⟩ := Option.ne_none_iff_exists'.1 (ha a (by simp))
      have h2 := work_inner (inner_of_step hw hs1)
      simp only [List.length_cons]
      omega

end Verif.Pymp
