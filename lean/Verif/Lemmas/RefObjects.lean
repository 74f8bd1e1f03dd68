import Verif.Model.RefObjects

/-! Helper lemmas for the references that a program holds. -/
namespace Verif.RefObj

theorem mapM_iff {α β : Type} (f : α → Option β) : ∀ (l : List α) (r : List β), l.mapM f = some r ↔ l.map f = r.map some
  | [], r => by cases r <;> simp
  | x :: l, r => by
    rw [List.mapM_cons]
    cases hx : f x with
    | none => cases r <;> simp [hx]
    | some y =>
      cases hl : l.mapM f with
      | none =>
        have := mapM_iff f l
        cases r with
        | nil => simp [hl]
        | cons z r =>
          have h := this r
          rw [hl] at h
          simp only [reduceCtorEq, false_iff] at h
          simp [hx, hl, h]
      | some k =>
        have h := (mapM_iff f l k).1 hl
        cases r with
        | nil => simp [hl]
        | cons z r =>
          simp only [hl, hx, Option.pure_def, Option.bind_eq_bind, Option.bind_some, Option.some.injEq, List.cons.injEq, List.map_cons]
          rw [h]
          constructor
          · rintro ⟨rfl, rfl⟩; exact ⟨rfl, rfl⟩
          · rintro ⟨rfl, h2⟩
            exact ⟨rfl, by simpa using congrArg (List.filterMap id) h2⟩

theorem unwrap_iff (s : State) (os rs : List Nat) : s.unwrap os = some rs ↔ os.map (s.inside[·]?) = rs.map some := mapM_iff _ _ _

theorem wrap_unwrap (s : State) (rs : List Nat) : (s.wrap rs).1.unwrap (s.wrap rs).2 = some rs := by
  rw [unwrap_iff]
  simp only [State.wrap, List.map_map]
  apply List.ext_getElem?
  intro i
  by_cases h : i < rs.length
  · simp [h]
  · have h' : rs.length ≤ i := by omega
    simp [h']

/-- `s'` has all the objects and values of `s`. -/
def Grows (s s' : State) : Prop := (∃ x, s'.inside = s.inside ++ x) ∧ ∃ y, s'.vals = s.vals ++ y

theorem Grows.refl (s : State) : Grows s s := ⟨⟨[], by simp⟩, ⟨[], by simp⟩⟩

theorem Grows.trans {a b c : State} (h : Grows a b) (g : Grows b c) : Grows a c := by
  obtain ⟨⟨x, hx⟩, y, hy⟩ := h
  obtain ⟨⟨x', hx'⟩, y', hy'⟩ := g
  exact ⟨⟨x ++ x', by rw [hx', hx, List.append_assoc]⟩, y ++ y', by rw [hy', hy, List.append_assoc]⟩

theorem Grows.inside {s s' : State} (h : Grows s s') {o r : Nat} (ho : s.inside[o]? = some r) : s'.inside[o]? = some r := by
  obtain ⟨⟨x, hx⟩, -⟩ := h
  rw [hx, List.getElem?_append_left (List.getElem?_eq_some_iff.1 ho).1]
  exact ho

theorem Grows.unwrap {s s' : State} (h : Grows s s') {os rs : List Nat} (ho : s.unwrap os = some rs) : s'.unwrap os = some rs := by
  rw [unwrap_iff] at ho ⊢
  rw [← ho]
  apply List.map_congr_left
  intro o hm
  have : s.inside[o]? ∈ rs.map some := by rw [← ho]; exact List.mem_map.2 ⟨o, hm, rfl⟩
  obtain ⟨r, -, hr⟩ := List.mem_map.1 this
  rw [← hr]; exact h.inside hr.symm

theorem wrap_grows (s : State) (rs : List Nat) : Grows s (s.wrap rs).1 := ⟨⟨rs, rfl⟩, [], by simp [State.wrap]⟩

theorem wrap_new {s : State} {rs : List Nat} {o : Nat} (h : o ∈ (s.wrap rs).2) : s.inside.length ≤ o := by
  simp only [State.wrap, List.mem_map, List.mem_range] at h
  obtain ⟨i, -, rfl⟩ := h
  omega

theorem wait_step {s s' : State} {a : Arg} {ready rest r1 r2 : List Nat} (h : s.step (.wait a ready rest) = some (s', r1, r2)) :
    ∃ given, s.unwrap a.objs = some given ∧ (ready ++ rest).Perm given ∧ Grows s s' ∧ s'.vals = s.vals ∧ s'.unwrap r1 = some ready ∧
      s'.unwrap r2 = some rest ∧ (∀ o ∈ r1 ++ r2, s.inside.length ≤ o) := by
  simp only [State.step] at h
  split at h
  · simp at h
  · rename_i given hg
    split at h
    · rename_i hp
      simp only [Option.some.injEq, Prod.mk.injEq] at h
      obtain ⟨rfl, rfl, rfl⟩ := h
      refine ⟨given, hg, List.isPerm_iff.1 hp, (wrap_grows _ _).trans (wrap_grows _ _), rfl,
        (wrap_grows _ _).unwrap (wrap_unwrap s ready), wrap_unwrap _ rest, ?_⟩
      intro o ho
      rw [List.mem_append] at ho
      rcases ho with ho | ho
      · exact wrap_new ho
      · have := wrap_new ho
        simp only [State.wrap, List.length_append] at this
        omega
    · simp at h

theorem step_grows {s s' : State} {a : Act} {r : List Nat × List Nat} (h : s.step a = some (s', r)) : Grows s s' := by
  cases a with
  | put v =>
    simp only [State.step, Option.some.injEq, Prod.mk.injEq] at h
    obtain ⟨rfl, -⟩ := h
    exact ⟨⟨_, rfl⟩, ⟨_, rfl⟩⟩
  | call vs =>
    simp only [State.step, Option.some.injEq, Prod.mk.injEq] at h
    obtain ⟨rfl, -⟩ := h
    exact ⟨⟨_, rfl⟩, ⟨_, rfl⟩⟩
  | wait a ready rest =>
    obtain ⟨r1, r2⟩ := r
    obtain ⟨_, _, _, hg, _⟩ := wait_step h
    exact hg
  | copy o =>
    simp only [State.step] at h
    split at h
    · simp at h
    · simp only [Option.some.injEq, Prod.mk.injEq] at h
      obtain ⟨rfl, -⟩ := h
      exact wrap_grows _ _

theorem run_grows : ∀ (as : List Act) {s s' : State}, s.run as = some s' → Grows s s'
  | [], s, s', h => by
    simp only [State.run, Option.some.injEq] at h
    subst h; exact Grows.refl _
  | a :: as, s, s', h => by
    simp only [State.run] at h
    split at h
    · simp at h
    · rename_i s1 r h1
      exact (step_grows h1).trans (run_grows as h)

/-- Every object is around a reference that has a value. -/
def Sound (s : State) : Prop := ∀ r ∈ s.inside, r < s.vals.length

theorem step_sound {s s' : State} {a : Act} {r : List Nat × List Nat} (hs : Sound s) (h : s.step a = some (s', r)) : Sound s' := by
  cases a with
  | put v =>
    simp only [State.step, State.wrap, Option.some.injEq, Prod.mk.injEq] at h
    obtain ⟨rfl, -⟩ := h
    intro x hx
    simp only [List.mem_append, List.mem_singleton, List.length_append, List.length_singleton] at hx ⊢
    rcases hx with hx | rfl
    · have := hs x hx; omega
    · omega
  | call vs =>
    simp only [State.step, State.wrap, Option.some.injEq, Prod.mk.injEq] at h
    obtain ⟨rfl, -⟩ := h
    intro x hx
    simp only [List.mem_append, List.mem_map, List.mem_range, List.length_append] at hx ⊢
    rcases hx with hx | ⟨i, hi, rfl⟩
    · have := hs x hx; omega
    · omega
  | wait a ready rest =>
    simp only [State.step] at h
    split at h
    · simp at h
    · rename_i given hg
      split at h
      · rename_i hp
        simp only [Option.some.injEq, Prod.mk.injEq] at h
        obtain ⟨rfl, -⟩ := h
        intro x hx
        simp only [State.wrap, List.append_assoc, List.mem_append] at hx
        simp only [State.wrap]
        rcases hx with hx | hx
        · exact hs x hx
        · have hx : x ∈ given := (List.isPerm_iff.1 hp).mem_iff.1 (List.mem_append.2 hx)
          rw [unwrap_iff] at hg
          have : some x ∈ a.objs.map (s.inside[·]?) := by rw [hg]; exact List.mem_map.2 ⟨x, hx, rfl⟩
          obtain ⟨o, -, ho⟩ := List.mem_map.1 this
          exact hs x (List.mem_of_getElem? ho)
      · simp at h
  | copy o =>
    simp only [State.step] at h
    split at h
    · simp at h
    · rename_i q hq
      simp only [State.wrap, Option.some.injEq, Prod.mk.injEq] at h
      obtain ⟨rfl, -⟩ := h
      intro x hx
      simp only [List.mem_append, List.mem_singleton] at hx
      rcases hx with hx | rfl
      · exact hs x hx
      · exact hs _ (List.mem_of_getElem? hq)

theorem run_sound : ∀ (as : List Act) {s s' : State}, Sound s → s.run as = some s' → Sound s'
  | [], s, s', hs, h => by
    simp only [State.run, Option.some.injEq] at h
    subst h; exact hs
  | a :: as, s, s', hs, h => by
    simp only [State.run] at h
    split at h
    · simp at h
    · rename_i s1 r h1
      exact run_sound as (step_sound hs h1) h

/-- The values of given objects, from the references in them. -/
theorem get_unwrap {s : State} (hs : Sound s) {os rs : List Nat} (h : s.unwrap os = some rs) :
    s.get os = some (rs.map fun r => s.vals.getD r 0) := by
  rw [State.get, mapM_iff]
  rw [unwrap_iff] at h
  rw [List.map_map]
  have : os.map (fun o => s.inside[o]?.bind fun r => s.vals[r]?) = (os.map (s.inside[·]?)).map (fun x => x.bind fun r => s.vals[r]?) := by
    rw [List.map_map]; rfl
  rw [this, h, List.map_map]
  apply List.map_congr_left
  intro r hr
  have hm : some r ∈ os.map (s.inside[·]?) := by rw [h]; exact List.mem_map.2 ⟨r, hr, rfl⟩
  obtain ⟨o, -, ho⟩ := List.mem_map.1 hm
  have hl := hs r (List.mem_of_getElem? ho)
  simp [List.getD, hl]

theorem unwrap_append {s : State} {a b x y : List Nat} (h1 : s.unwrap a = some x) (h2 : s.unwrap b = some y) :
    s.unwrap (a ++ b) = some (x ++ y) := by
  rw [unwrap_iff] at *
  rw [List.map_append, List.map_append, h1, h2]

theorem lookup_absent {table : List (Nat × Nat)} {o : Nat} (h : ∀ p ∈ table, p.1 ≠ o) : lookupRef table o = none := by
  unfold lookupRef
  rw [Option.map_eq_none_iff, List.find?_eq_none]
  intro p hp
  simpa [sameRef] using h p hp

theorem remove_absent {o : Nat} : ∀ (l : List Nat), o ∉ l → removeRef o l = none
  | [], _ => rfl
  | x :: l, h => by
    have h1 : x ≠ o := fun e => h (by simp [e])
    have h2 := remove_absent l (fun e => h (List.mem_cons_of_mem _ e))
    simp [removeRef, sameRef, h1, h2]

theorem drain_spec : ∀ (answers : List (List Nat × List Nat)) {s s' : State} {l done : List Nat}, s.drain l answers = some (s', done) →
    Grows s s' ∧ s'.vals = s.vals ∧ ∀ given, s.unwrap l = some given → ∃ rs, s'.unwrap done = some rs ∧ rs.Perm given
  | [], s, s', l, done, h => by
    simp only [State.drain] at h
    split at h
    · rename_i hl
      simp only [Option.some.injEq, Prod.mk.injEq] at h
      obtain ⟨rfl, rfl⟩ := h
      subst hl
      exact ⟨Grows.refl _, rfl, fun given hg => ⟨given, hg, List.Perm.refl _⟩⟩
    · simp at h
  | (ready, rest) :: more, s, s', l, done, h => by
    simp only [State.drain] at h
    split at h
    · simp at h
    · rename_i s1 d l1 h1
      rw [Option.map_eq_some_iff] at h
      obtain ⟨⟨s2, d2⟩, h2, h3⟩ := h
      simp only [Prod.mk.injEq] at h3
      obtain ⟨rfl, rfl⟩ := h3
      obtain ⟨given, hg, hp, hgr, hv, hu1, hu2, -⟩ := wait_step h1
      obtain ⟨g2, v2, d2'⟩ := drain_spec more h2
      refine ⟨hgr.trans g2, v2.trans hv, ?_⟩
      intro given' hg'
      have : given' = given := by
        simp only [Arg.objs] at hg
        rw [hg] at hg'
        exact (Option.some.inj hg').symm
      subst this
      obtain ⟨rs, hr, hrp⟩ := d2' rest hu2
      exact ⟨ready ++ rs, unwrap_append (g2.unwrap hu1) hr, (List.Perm.append_left ready hrp).trans hp⟩

theorem drain_sound : ∀ (answers : List (List Nat × List Nat)) {s s' : State} {l done : List Nat}, Sound s →
    s.drain l answers = some (s', done) → Sound s'
  | [], s, s', l, done, hs, h => by
    simp only [State.drain] at h
    split at h
    · simp only [Option.some.injEq, Prod.mk.injEq] at h
      obtain ⟨rfl, -⟩ := h
      exact hs
    · simp at h
  | (ready, rest) :: more, s, s', l, done, hs, h => by
    simp only [State.drain] at h
    split at h
    · simp at h
    · rename_i s1 d l1 h1
      rw [Option.map_eq_some_iff] at h
      obtain ⟨⟨s2, d2⟩, h2, h3⟩ := h
      simp only [Prod.mk.injEq] at h3
      obtain ⟨rfl, rfl⟩ := h3
      exact drain_sound more (step_sound hs h1) h2

theorem drain_possible : ∀ (p : List Nat) {s : State} {l given : List Nat}, s.unwrap l = some given → p.Perm given →
    ∃ answers s' done, s.drain l answers = some (s', done) ∧ (∀ q ∈ answers, q.1.length = 1) ∧ s'.unwrap done = some p
  | [], s, l, given, hu, hp => by
    have hg : given = [] := List.perm_nil.1 hp.symm
    subst hg
    rw [unwrap_iff] at hu
    have hl : l = [] := by simpa using hu
    subst hl
    exact ⟨[], s, [], by simp [State.drain], by simp, by simp [State.unwrap]⟩
  | x :: p, s, l, given, hu, hp => by
    have hw : s.step (.wait (.many l) [x] p) = some (((s.wrap [x]).1.wrap p).1, (s.wrap [x]).2, ((s.wrap [x]).1.wrap p).2) := by
      simp only [State.step, Arg.objs, hu]
      rw [if_pos]
      exact List.isPerm_iff.2 hp
    obtain ⟨answers, s', done, h1, h2, h3⟩ := drain_possible p (wrap_unwrap (s.wrap [x]).1 p) (List.Perm.refl _)
    refine ⟨([x], p) :: answers, s', (s.wrap [x]).2 ++ done, ?_, ?_, ?_⟩
    · simp only [State.drain, hw, h1, Option.map_some]
    · intro q hq
      rw [List.mem_cons] at hq
      rcases hq with rfl | hq
      · rfl
      · exact h2 q hq
    · have := (drain_spec answers h1).1.unwrap ((wrap_grows _ p).unwrap (wrap_unwrap s [x]))
      exact unwrap_append this h3

end Verif.RefObj
