import Verif.Model.PympManager

/-! Helper lemmas for the multiprocessing worker pool. -/
namespace Verif.PympPool

/-- The flags are exactly the live actors, which have different workers. -/
structure Inv (n : Nat) (s : State) : Prop where
  len : s.pool.grabbed.length = n
  nextLt : s.pool.nextId < n ∨ n = 0
  flag : ∀ i, s.pool.grabbed[i]? = some true ↔ i ∈ s.actors
  nodup : s.actors.Nodup

theorem firstFree_some {l : List Bool} {i : Nat} (h : firstFree l = some i) : l[i]? = some false := by
  induction l generalizing i with
  | nil => simp [firstFree] at h
  | cons b t ih =>
    cases b with
    | false => simp [firstFree] at h; subst h; rfl
    | true =>
      simp only [firstFree, Option.map_eq_some_iff] at h
      obtain ⟨j, hj, rfl⟩ := h
      simpa using ih hj

theorem firstFree_none {l : List Bool} (h : firstFree l = none) (i : Nat) (hi : i < l.length) : l[i]? = some true := by
  induction l generalizing i with
  | nil => simp at hi
  | cons b t ih =>
    cases b with
    | false => simp [firstFree] at h
    | true =>
      simp only [firstFree, Option.map_eq_none_iff] at h
      cases i with
      | zero => rfl
      | succ i => simpa using ih h i (by simpa using hi)

/-- The position of the round robin after `t` more calls of `_next`. -/
theorem submitLoop_spec (fuel : Nat) : ∀ (p : Pool), p.nextId < p.grabbed.length →
    (p.submitLoop fuel).2.grabbed = p.grabbed ∧ (p.submitLoop fuel).2.nextId < p.grabbed.length ∧
    (∀ i, (p.submitLoop fuel).1 = some i → p.grabbed[i]? = some false) ∧
    ((p.submitLoop fuel).1 = none → ∀ t < fuel, p.grabbed[(p.nextId + t) % p.grabbed.length]? = some true) := by
  induction fuel with
  | zero => intro p h; simp [Pool.submitLoop, h]
  | succ fuel ih =>
    intro p h
    have hn : p.next.2.nextId < p.next.2.grabbed.length := by
      simp only [Pool.next]; split <;> omega
    have hg : p.next.2.grabbed = p.grabbed := rfl
    have hmod : p.next.2.nextId = (p.nextId + 1) % p.grabbed.length := by
      simp only [Pool.next]
      split
      · rename_i he; rw [he, Nat.mod_self]
      · rw [Nat.mod_eq_of_lt (by omega)]
    have hidx : p.next.1 = p.nextId := rfl
    simp only [Pool.submitLoop]
    split
    · rename_i hnone
      rw [hidx, List.getElem?_eq_none_iff] at hnone
      omega
    · rename_i hf
      refine ⟨rfl, by rw [hg] at hn; exact hn, ?_, by simp⟩
      intro i hi
      simp only [Option.some.injEq] at hi
      rw [← hi]; exact hf
    · rename_i ht
      obtain ⟨i1, i2, i3, i4⟩ := ih p.next.2 hn
      rw [hg] at i1 i2 i3 i4
      refine ⟨i1, i2, i3, ?_⟩
      intro hno t htl
      cases t with
      | zero => rw [Nat.add_zero, Nat.mod_eq_of_lt h]; exact ht
      | succ t =>
        have := i4 hno t (by omega)
        rw [hmod, Nat.mod_add_mod] at this
        rw [show p.nextId + (t + 1) = p.nextId + 1 + t by omega]
        exact this

theorem shift_exists (m p i : Nat) (hi : i < m) : ∃ t < m, (p + t) % m = i := by
  have hp : p % m < m := Nat.mod_lt _ (by omega)
  by_cases h : p % m ≤ i
  · refine ⟨i - p % m, by omega, ?_⟩
    rw [Nat.add_mod, Nat.mod_eq_of_lt (show i - p % m < m by omega)]
    rw [show p % m + (i - p % m) = i by omega, Nat.mod_eq_of_lt hi]
  · refine ⟨m + i - p % m, by omega, ?_⟩
    rw [Nat.add_mod, Nat.mod_eq_of_lt (show m + i - p % m < m by omega)]
    rw [show p % m + (m + i - p % m) = m + i by omega]
    simp [Nat.mod_eq_of_lt hi]

theorem submit_spec (p : Pool) (h : p.nextId < p.grabbed.length ∨ p.grabbed.length = 0) :
    p.submit.2.grabbed = p.grabbed ∧ (p.submit.2.nextId < p.grabbed.length ∨ p.grabbed.length = 0) ∧
    (∀ i, p.submit.1 = some i → p.grabbed[i]? = some false) ∧
    (p.submit.1 = none → ∀ i < p.grabbed.length, p.grabbed[i]? = some true) := by
  rcases h with h | h
  · obtain ⟨h1, h2, h3, h4⟩ := submitLoop_spec p.grabbed.length p h
    refine ⟨h1, Or.inl h2, h3, ?_⟩
    intro hno i hi
    obtain ⟨t, ht, he⟩ := shift_exists p.grabbed.length p.nextId i hi
    have := h4 hno t ht
    rw [he] at this
    exact this
  · have : p.submit = (none, p) := by simp [Pool.submit, h, Pool.submitLoop]
    rw [this]
    simp only [reduceCtorEq, false_implies, implies_true, true_and]
    exact ⟨Or.inr h, fun _ i hi => by omega⟩

theorem inv_step {n : Nat} {s : State} (h : Inv n s) (o : Op) : Inv n (s.step o).2 := by
  have hn : s.pool.nextId < s.pool.grabbed.length ∨ s.pool.grabbed.length = 0 := by rw [h.len]; exact h.nextLt
  obtain ⟨h1, h2, h3, h4⟩ := submit_spec s.pool hn
  cases o with
  | submit =>
    simp only [State.step]
    split <;> rename_i hs <;> rw [hs] at h1 h2 <;> simp only at h1 h2
    · exact ⟨by simp only; rw [h1]; exact h.len, by simp only; rw [← h.len]; exact h2,
        by simp only; rw [h1]; exact h.flag, h.nodup⟩
    · exact ⟨by simp only; rw [h1]; exact h.len, by simp only; rw [← h.len]; exact h2,
        by simp only; rw [h1]; exact h.flag, h.nodup⟩
  | create =>
    simp only [State.step, Pool.grab]
    split <;> rename_i hs
    · split at hs
      · rename_i i hf
        simp only [Prod.mk.injEq, Option.some.injEq] at hs
        obtain ⟨rfl, rfl⟩ := hs
        have hff := firstFree_some hf
        have hi : i < s.pool.grabbed.length := (List.getElem?_eq_some_iff.1 hff).1
        have hni : i ∉ s.actors := fun hc => by
          have := (h.flag i).2 hc
          rw [hff] at this
          simp at this
        refine ⟨by simp [h.len], by simpa using h.nextLt, ?_, ?_⟩
        · intro j
          simp only [List.getElem?_set, List.mem_append, List.mem_singleton]
          by_cases hj : i = j
          · subst hj; simp [hi]
          · have : ¬ j = i := fun hc => hj hc.symm
            simp [hj, this, h.flag j]
        · simp only
          rw [List.nodup_append]
          refine ⟨h.nodup, by simp, ?_⟩
          intro a ha b hb
          simp only [List.mem_singleton] at hb
          subst hb
          exact fun hc => hni (hc ▸ ha)
      · simp at hs
    · split at hs
      · simp at hs
      · simp only [Prod.mk.injEq, true_and] at hs
        subst hs
        exact h
  | drop k =>
    simp only [State.step]
    split
    · rename_i i hi
      have hmem : i ∈ s.actors := List.mem_of_getElem? hi
      have hg := (h.flag i).2 hmem
      have hlt : i < s.pool.grabbed.length := (List.getElem?_eq_some_iff.1 hg).1
      have hmem2 : ∀ j, j ∈ s.actors.eraseIdx k ↔ (j ∈ s.actors ∧ j ≠ i) := by
        intro j
        rw [List.mem_eraseIdx_iff_getElem?]
        constructor
        · rintro ⟨m, hm, hj⟩
          refine ⟨List.mem_of_getElem? hj, ?_⟩
          rintro rfl
          apply hm
          have h1 := List.getElem?_eq_some_iff.1 hj
          have h2 := List.getElem?_eq_some_iff.1 hi
          obtain ⟨a, ha⟩ := h1
          obtain ⟨b, hb⟩ := h2
          exact (List.getElem_inj h.nodup).1 (ha.trans hb.symm)
        · rintro ⟨hj, hne⟩
          obtain ⟨m, hm⟩ := List.getElem?_of_mem hj
          refine ⟨m, ?_, hm⟩
          rintro rfl
          rw [hm] at hi
          injection hi with hi
          exact hne hi
      refine ⟨by simp [Pool.free, h.len], by simpa [Pool.free] using h.nextLt, ?_, ?_⟩
      · intro j
        simp only [Pool.free, List.getElem?_set]
        rw [hmem2]
        by_cases hj : i = j
        · subst hj; simp [hlt]
        · have : j ≠ i := fun hc => hj hc.symm
          simp [hj, this, h.flag j]
      · exact h.nodup.sublist (List.eraseIdx_sublist _ _)
    · exact h

theorem inv_init (n : Nat) : Inv n (State.init n) := by
  refine ⟨by simp [State.init, Pool.init], ?_, ?_, by simp [State.init]⟩
  · simp only [State.init, Pool.init]; omega
  · intro i
    simp only [State.init, Pool.init, List.getElem?_replicate]
    split <;> simp

theorem run_mem {n : Nat} (ops : List Op) : ∀ {s : State}, Inv n s → ∀ live o e, (live, o, e) ∈ (s.run ops).1 →
    ∃ t : State, Inv n t ∧ t.actors = live ∧ (t.step o).1 = e := by
  induction ops with
  | nil => intro s _ live o e h; simp [State.run] at h
  | cons o' os ih =>
    intro s hs live o e h
    simp only [State.run, List.mem_cons, Prod.mk.injEq] at h
    rcases h with ⟨rfl, rfl, rfl⟩ | h
    · exact ⟨s, hs, rfl, rfl⟩
    · exact ih (inv_step hs o') live o e h

theorem run_inv {n : Nat} (ops : List Op) : ∀ {s : State}, Inv n s → Inv n (s.run ops).2 := by
  induction ops with
  | nil => intro s h; exact h
  | cons o os ih => intro s h; exact ih (inv_step h o)

end Verif.PympPool
