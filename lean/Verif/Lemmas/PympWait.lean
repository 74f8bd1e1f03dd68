import Verif.Lemmas.PympLog

/-! Helper lemmas about `wait` and stored objects of the multiprocessing backend. -/
namespace Verif.Pymp
open Verif.Spec.Pymp

theorem scan_skip {isReady : Nat → Bool} {k : Nat} (hk : 1 ≤ k) : ∀ (u c : List Nat) (pos : Nat) (ids : List Nat),
    (∀ x ∈ u, isReady x = false) → scan isReady k (u ++ c) pos [] ids = scan isReady k c (pos + u.length) [] ids := by
  intro u
  induction u with
  | nil => intro c pos ids _; rfl
  | cons x u ih =>
    intro c pos ids h
    simp only [List.cons_append, scan]
    rw [h x (by simp), if_neg (by simp), if_neg (by simp; omega), ih c (pos + 1) ids fun y hy => h y (List.mem_cons_of_mem _ hy)]
    simp only [List.length_cons]
    rw [show pos + 1 + u.length = pos + (u.length + 1) by omega]

theorem scan_none {isReady : Nat → Bool} {k : Nat} : ∀ (c : List Nat) (pos : Nat) (ready ids : List Nat),
    (∀ x ∈ c, isReady x = false) → scan isReady k c pos ready ids = some (ready, ids) := by
  intro c
  induction c with
  | nil => intro pos ready ids _; rfl
  | cons x c ih =>
    intro pos ready ids h
    simp only [scan]
    rw [h x (by simp), if_neg (by simp)]
    split
    · rfl
    · exact ih _ _ _ fun y hy => h y (List.mem_cons_of_mem _ hy)

theorem drain_all {final : Nat → Option (Except Nat Val)} {k : Nat} : ∀ (rest ready : List Nat),
    (∀ x ∈ rest, ∃ v, final x = some (.ok v)) → ready.length ≤ k → k ≤ ready.length + rest.length →
    drain final k ready rest = .result (ready ++ rest.take (k - ready.length)) (rest.drop (k - ready.length)) := by
  intro rest
  induction rest with
  | nil =>
    intro ready _ h1 h2
    simp only [drain]
    rw [if_pos (by simp at h2; omega)]
    simp
  | cons x rest ih =>
    intro ready h h1 h2
    simp only [drain]
    split
    · rename_i e
      rw [e]
      simp
    · obtain ⟨v, hv⟩ := h x (by simp)
      simp only [hv]
      rw [ih _ (fun y hy => h y (List.mem_cons_of_mem _ hy)) (by simp; omega) (by simp at h2 ⊢; omega)]
      simp only [List.length_append, List.length_singleton]
      rw [show k - ready.length = (k - (ready.length + 1)) + 1 by omega]
      simp

/-- The items refer to references from `lo` on. -/
theorem _root_.Verif.Spec.Pymp.Span.refs_ge {lo hi : Nat} {l : List Item} (h : Span lo l hi) {x : Item} (hx : x ∈ l) :
    ∀ o ∈ x.refs, lo ≤ o := by
  induction h with
  | nil => simp at hx
  | skip hle _ ih => intro o ho; have := ih hx o ho; omega
  | put hs ih =>
    rcases List.mem_cons.1 hx with rfl | hx
    · intro o ho
      simp only [Item.refs, List.mem_singleton] at ho
      omega
    · intro o ho; have := ih hx o ho; omega
  | task h1 h2 h3 h4 hs ih =>
    rcases List.mem_cons.1 hx with rfl | hx
    · intro o ho
      exact (h2 o ho).1
    · intro o ho; have := ih hx o ho; omega

/-- Different calls return different references. -/
theorem _root_.Verif.Spec.Pymp.Span.put_task {lo hi : Nat} {l : List Item} (h : Span lo l hi) {id : Nat} {v : Val} {t : Task}
    (h1 : Item.put id v ∈ l) (h2 : Item.task t ∈ l) : id ∉ t.outs := by
  induction h with
  | nil => simp at h1
  | skip hle _ ih => exact ih h1 h2
  | put hs ih =>
    have h2' := (List.mem_cons.1 h2).resolve_left (by simp)
    rcases List.mem_cons.1 h1 with e | h1
    · cases e
      intro hm
      have := hs.refs_ge h2' _ hm
      omega
    · exact ih h1 h2'
  | task k1 k2 k3 k4 hs ih =>
    have h1' := (List.mem_cons.1 h1).resolve_left (by simp)
    rcases List.mem_cons.1 h2 with e | h2
    · cases e
      intro hm
      have := (k2 _ hm).2
      have := hs.refs_ge h1' id (by simp [Item.refs])
      omega
    · exact ih h1' h2

/-- Objects put into the store stay there. -/
def PutsKept (W : World) (s : State) : Prop := ∀ id v, Item.put id v ∈ s.items → s.store id = some (.val (putVal W v))

theorem putsKept_step {W : World} {n : Nat} {s s' : State} {a : Act} (hs : Shape n s) (ht : TodoOk s) (hk : PutsKept W s)
    (h : step W s a = some s') : PutsKept W s' := by
  cases ha : a.byWorker with
  | none =>
    have hold : ∀ id v, Item.put id v ∈ s.items → id < s.next := fun id v hm => hs.span.refs_lt hm id (by simp [Item.refs])
    cases outer_of_step hs ha h with
    | put v =>
      intro id u hm
      simp only [List.mem_append, List.mem_singleton, Item.put.injEq] at hm
      simp only [upd]
      rcases hm with hm | ⟨rfl, rfl⟩
      · have := hold id u hm
        rw [if_neg (by omega)]
        exact hk id u hm
      · simp
    | refuse k pool hp =>
      intro id u hm
      have := hold id u hm
      simp only
      rw [delayAll_apply, if_neg (by rw [mem_newIds]; omega)]
      exact hk id u hm
    | task t w k pool hp hw hi ho ha hg ht =>
      intro id u hm
      simp only [List.mem_append, List.mem_singleton, reduceCtorEq, or_false] at hm
      have := hold id u hm
      simp only
      rw [delayAll_apply, if_neg (by rw [mem_newIds]; omega)]
      exact hk id u hm
    | admin pool actors hp h1 h2 => exact hk
  | some w =>
    have hin := inner_of_step ha h
    intro id u hm
    rw [(frame_of_inner hin).items] at hm
    cases hin with
    | write hx =>
      rename_i queue t o v todo
      have h1 := ht w _ _ _ _ hx (o, v) (by simp)
      have h2 := List.mem_of_getElem? (hs.idx w _ hx t (by simp [tasks, held]))
      have h3 := hs.span.put_task hm h2
      simp only [upd]
      rw [if_neg (by rintro rfl; exact h3 h1)]
      exact hk id u hm
    | _ => exact hk id u hm

theorem reach_puts {W : World} {n : Nat} {acts : List Act} : ∀ {s s' : State}, Shape n s → TodoOk s → PutsKept W s →
    run W s acts = some s' → PutsKept W s' := by
  induction acts with
  | nil =>
    intro s s' h1 h2 h3 h
    simp only [run, Option.some.injEq] at h
    subst h
    exact h3
  | cons a acts ih =>
    intro s s' h1 h2 h3 h
    simp only [run] at h
    split at h
    · cases h
    · rename_i s1 hs1
      obtain ⟨k1, k2⟩ := shape_step h1 h2 hs1
      exact ih k1 k2 (putsKept_step h1 h2 h3 hs1) h

/-- When the first loop comes to an end, in terms of positions. -/
theorem scan_exact {isReady : Nat → Bool} {k : Nat} : ∀ (copy : List Nat) (pos : Nat) (ready cur : List Nat), ready.length < k →
    (((scan isReady k copy pos ready cur).isSome = true ↔
      ∀ i x, copy[i]? = some x → isReady x = true → ready.length + (copy.take i).countP isReady < k →
        pos + i + (copy.take i).countP isReady < cur.length) ∧
    ∀ r c, scan isReady k copy pos ready cur = some (r, c) → (r ++ c).Perm (ready ++ cur) ∧ r.length ≤ k ∧ ready <+: r) := by
  intro copy
  induction copy with
  | nil =>
    intro pos ready cur hk
    simp only [scan, Option.isSome_some, List.getElem?_nil, reduceCtorEq, false_implies, implies_true, true_and, Option.some.injEq,
      Prod.mk.injEq]
    rintro r c ⟨rfl, rfl⟩
    exact ⟨List.Perm.refl _, by omega, List.prefix_refl _⟩
  | cons x copy ih =>
    intro pos ready cur hk
    simp only [scan]
    by_cases hx : isReady x = true
    · simp only [hx, if_true]
      cases hy : cur[pos]? with
      | none =>
        simp only [Option.isSome_none, Bool.false_eq_true, false_iff, reduceCtorEq, false_implies, implies_true, and_true]
        intro h
        have := h 0 x rfl hx (by simpa using hk)
        have := List.getElem?_eq_none_iff.1 hy
        simp at *
        omega
      | some y =>
        obtain ⟨hpos, hyv⟩ := List.getElem?_eq_some_iff.1 hy
        have herase : (y :: cur.eraseIdx pos).Perm cur := by
          rw [← hyv, List.eraseIdx_eq_take_drop_succ]
          refine List.perm_middle.symm.trans ?_
          rw [List.getElem_cons_drop, List.take_append_drop]
        have hperm : (ready ++ [y] ++ cur.eraseIdx pos).Perm (ready ++ cur) := by
          rw [List.append_assoc]
          exact List.Perm.append_left _ herase
        by_cases hlen : (ready ++ [y]).length = k
        · simp only [hlen, if_true, Option.isSome_some, true_iff, Option.some.injEq, Prod.mk.injEq]
          constructor
          · intro i z hz hzr hc
            cases i with
            | zero => simpa using hpos
            | succ i =>
              simp only [List.take_succ_cons, List.countP_cons, hx, if_true, List.length_append, List.length_singleton] at hc hlen
              omega
          · rintro r c ⟨rfl, rfl⟩
            exact ⟨hperm, by omega, List.prefix_append _ _⟩
        · simp only [hlen, if_false]
          obtain ⟨h1, h2⟩ := ih (pos + 1) (ready ++ [y]) (cur.eraseIdx pos) (by simp at hlen ⊢; omega)
          have hel : (cur.eraseIdx pos).length = cur.length - 1 := by rw [List.length_eraseIdx]; simp [hpos]
          constructor
          · rw [h1]
            constructor
            · intro h i z hz hzr hc
              cases i with
              | zero => simpa using hpos
              | succ i =>
                simp only [List.take_succ_cons, List.countP_cons, hx, if_true] at hc ⊢
                have := h i z (by simpa using hz) hzr (by simp; omega)
                omega
            · intro h i z hz hzr hc
              have := h (i + 1) z (by simpa using hz) hzr (by
                simp only [List.take_succ_cons, List.countP_cons, hx, if_true]
                simp at hc
                omega)
              simp only [List.take_succ_cons, List.countP_cons, hx, if_true] at this
              omega
          · intro r c hrc
            obtain ⟨a, b, d⟩ := h2 r c hrc
            exact ⟨a.trans hperm, b, (List.prefix_append _ _).trans d⟩
    · have hx' : isReady x = false := by simpa using hx
      have hk' : ¬ ready.length = k := by omega
      simp only [hx', Bool.false_eq_true, if_false, hk']
      obtain ⟨h1, h2⟩ := ih (pos + 1) ready cur hk
      refine ⟨?_, h2⟩
      rw [h1]
      constructor
      · intro h i z hz hzr hc
        cases i with
        | zero =>
          simp only [List.getElem?_cons_zero, Option.some.injEq] at hz
          subst hz
          rw [hx'] at hzr
          cases hzr
        | succ i =>
          simp only [List.take_succ_cons, List.countP_cons, hx', Bool.false_eq_true, if_false] at hc ⊢
          have := h i z (by simpa using hz) hzr (by simpa using hc)
          omega
      · intro h i z hz hzr hc
        have := h (i + 1) z (by simpa using hz) hzr (by simpa [hx'] using hc)
        simp only [List.take_succ_cons, List.countP_cons, hx', Bool.false_eq_true, if_false] at this
        omega

end Verif.Pymp
