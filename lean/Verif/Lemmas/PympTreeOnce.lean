import Verif.Lemmas.PympTree

/-! Every call of the tree of processes has one result or is in a queue. -/
namespace Verif.PympTree

/-- No call has two results; every call has a result or is in a queue. -/
structure Once (s : State) : Prop where
  nd : (s.done.map (·.1)).Nodup
  all : ∀ i, i < s.next → i ∈ s.done.map (·.1) ∨ ∃ w, i ∈ ids s w

theorem Once.init (n : Nat) : Once (State.init n) := ⟨by simp [State.init], by simp [State.init]⟩

theorem Once.of_eq {s s' : State} (h : Once s) (hi : ∀ w, ids s' w = ids s w) (hd : s'.done = s.done) (hn : s'.next = s.next) : Once s' :=
  ⟨by rw [hd]; exact h.nd, by intro i h1; rw [hn] at h1; rw [hd]; simp only [hi]; exact h.all i h1⟩

theorem Once.add {s : State} (h : Once s) (w : Nat) (j : Job) : Once (s.add w j) := by
  refine ⟨h.nd, fun i hi => ?_⟩
  have hi : i < s.next + 1 := hi
  by_cases e : i = s.next
  · exact .inr ⟨w, by rw [ids_add, if_pos rfl, e]; simp⟩
  · rcases h.all i (by omega) with h1 | ⟨v, h1⟩
    · exact .inl h1
    · refine .inr ⟨v, ?_⟩
      rw [ids_add]; split
      · exact List.mem_append_left _ h1
      · exact h1

theorem Once.finish {s : State} (h : Once s) (hu : Uniq s) (w id : Nat) (r : Bool) (hq : (ids s w).head? = some id) : Once (s.finish w id r) := by
  have hm : id ∈ ids s w := List.mem_of_head? hq
  constructor
  · simp only [State.finish, List.map_append, List.map_cons, List.map_nil]
    rw [List.nodup_append]
    refine ⟨h.nd, by simp, ?_⟩
    intro a ha b hb e
    simp only [List.mem_singleton] at hb
    subst hb; subst e
    exact hu.done w _ hm ha
  · intro i hi
    rcases h.all i hi with h1 | ⟨v, h1⟩
    · exact .inl (by simp only [State.finish, List.map_append]; exact List.mem_append_left _ h1)
    · by_cases e : i = id
      · exact .inl (by simp [State.finish, e])
      · refine .inr ⟨v, ?_⟩
        rw [ids_finish]; split
        · rename_i hv
          subst hv
          cases hl : ids s v with
          | nil => rw [hl] at h1; simp at h1
          | cons x l =>
            rw [hl] at h1 hq
            simp only [List.head?_cons, Option.some.injEq] at hq
            simp only [List.mem_cons] at h1
            rcases h1 with h1 | h1
            · omega
            · exact h1
        · exact h1

theorem Once.issue {n : Nat} {s s' : State} {p : Nat} {cmd : Cmd} (h : Once s) (hb : Base n s.tree) (hs : s.issue p cmd = some s') : Once s' := by
  obtain ⟨-, -, ⟨-, h1, h2, h3, -⟩ | ⟨t, i, j, rfl, -, -⟩⟩ := issue_cases hb hs
  · exact h.of_eq (fun w => by simp only [ids, h1]) h2 h3
  · have h0 : Once ({ s with tree := t } : State) := h.of_eq (fun _ => rfl) rfl rfl
    exact h0.add i j

theorem Once.does {n : Nat} {s : State} (h : Once s) (hg : Good False n s) {w id a : Nat} {j : Job} {rest : List (Nat × Job)}
    (hq : s.queues w = (id, j) :: rest) (cmd : Cmd) (g : Bool) (r : Body) : Once (s.does w id a cmd g r) := by
  have hh : (ids s w).head? = some id := by simp [ids, hq]
  unfold State.does
  cases hi : s.issue (a + 1) cmd with
  | none => exact h.finish hg.uniq w id false hh
  | some s' =>
    obtain ⟨l, hl⟩ := issue_queue hg.base hi w
    have hh' : (ids s' w).head? = some id := by simp [ids, hl, hq]
    exact (h.issue hg.base hi).of_eq (fun v => ids_head s' w v id _ hh') rfl rfl

theorem step_once {n : Nat} {s s' : State} {act : Act} (h : Once s) (hg : Good False n s) (hs : s.step act = some s') : Once s' := by
  cases act with
  | main cmd =>
    simp only [State.step, Option.some.injEq] at hs
    subst hs
    cases hi : s.issue 0 cmd with
    | none => exact h
    | some t => exact h.issue hg.base hi
  | work w =>
    obtain ⟨id, job, rest, hq, hc⟩ := work_cases hs
    have hh : (ids s w).head? = some id := by simp [ids, hq]
    rcases hc with ⟨r, rfl⟩ | ⟨a, b, j, rfl, -, rfl⟩ | ⟨a, r, rfl, rfl⟩ | ⟨a, g, r, rfl, rfl⟩ | ⟨a, k, b, g, r, rfl, rfl⟩
    · exact h.finish hg.uniq w id r hh
    · exact h.of_eq (fun v => ids_head s w v id _ hh) rfl rfl
    · exact h.does hg hq _ _ _
    · exact h.does hg hq _ _ _
    · exact h.does hg hq _ _ _

theorem run_once {n : Nat} (as : List Act) : ∀ {s s' : State}, Once s → Good False n s → s.run as = some s' → Once s' := by
  induction as with
  | nil => intro s s' h _ hr; simp only [State.run, Option.some.injEq] at hr; exact hr ▸ h
  | cons a as ih =>
    intro s s' h hg hr
    simp only [State.run] at hr
    cases hs : s.step a with
    | none => rw [hs] at hr; simp at hr
    | some s1 => rw [hs] at hr; exact ih (step_once h hg hs) (step_good hg hs) hr

theorem lookup_of_mem {j : Nat} {r : Bool} : ∀ (l : List (Nat × Bool)), (l.map (·.1)).Nodup → (j, r) ∈ l → l.lookup j = some r
  | [], _, h => by simp at h
  | (k, q) :: l, hn, h => by
    simp only [List.map_cons, List.nodup_cons] at hn
    simp only [List.mem_cons, Prod.mk.injEq] at h
    by_cases e : j = k
    · subst e
      rcases h with ⟨-, rfl⟩ | h
      · simp
      · exact absurd (List.mem_map.2 ⟨_, h, rfl⟩) hn.1
    · rcases h with ⟨h, -⟩ | h
      · exact absurd h e
      · have e' : (j == k) = false := by simpa using e
        simp only [List.lookup, e', lookup_of_mem l hn.2 h]

end Verif.PympTree
