import Verif.Model.Reach

/-! What a process knows follows from the calls made so far. -/
namespace Verif.Reach

/-- The history introduced `p` to process `r`: it created `p` by `put` or by a call, or a call sent to it had `p` as an argument
that is not hidden in another object. -/
def Told (ops : List Op) (r p : Nat) : Prop :=
  (∃ c, Op.put r p c ∈ ops) ∨ (∃ d a i, Op.submit r d p a i ∈ ops) ∨ ∃ r' n a i, Op.submit r' r n a i ∈ ops ∧ p ∈ a

/-- A call with output `p` was sent to process `r`. -/
def Sent (ops : List Op) (r p : Nat) : Prop := ∃ r' a i, Op.submit r' r p a i ∈ ops

theorem Told.snoc {ops : List Op} {r p : Nat} (h : Told ops r p) (op : Op) : Told (ops ++ [op]) r p := by
  rcases h with ⟨c, h⟩ | ⟨d, a, i, h⟩ | ⟨r', n, a, i, h, hp⟩
  · exact Or.inl ⟨c, by simp [h]⟩
  · exact Or.inr (Or.inl ⟨d, a, i, by simp [h]⟩)
  · exact Or.inr (Or.inr ⟨r', n, a, i, by simp [h], hp⟩)

theorem Sent.snoc {ops : List Op} {r p : Nat} (h : Sent ops r p) (op : Op) : Sent (ops ++ [op]) r p := by
  obtain ⟨r', a, i, h⟩ := h
  exact ⟨r', a, i, by simp [h]⟩

theorem setData_known (s : Sys) (r p r' q : Nat) :
    (s.setData r p).known r' q = true ↔ s.known r' q = true ∨ (r' = r ∧ q = p) := by
  simp only [Sys.setData, Sys.known]
  split <;> simp_all

theorem setOwner_known (s : Sys) (r p o r' q : Nat) :
    (s.setOwner r p (some o)).known r' q = true ↔ s.known r' q = true ∨ (r' = r ∧ q = p) := by
  simp only [Sys.setOwner, Sys.known]
  split <;> simp_all

theorem push_fields (r dest : Nat) (l : List Nat) (s : Sys) : (s.push r dest l).held = s.held ∧
    (s.push r dest l).tasks = s.tasks ∧ (s.push r dest l).content = s.content ∧ (s.push r dest l).next = s.next := by
  induction l generalizing s with
  | nil => simp [Sys.push]
  | cons p l ih =>
    rw [Sys.push]
    split
    · simpa [Sys.setData] using ih (s.setData dest p)
    · simpa [Sys.setOwner] using ih (s.setOwner dest p (s.owner r p))

/-- After a push the receiver knows what it knew and what was sent, the others what they knew. -/
theorem push_known {r dest : Nat} (l : List Nat) (s : Sys) (hl : ∀ p ∈ l, s.known r p = true) (r' q : Nat) :
    (s.push r dest l).known r' q = true ↔ s.known r' q = true ∨ (r' = dest ∧ q ∈ l) := by
  induction l generalizing s with
  | nil => simp [Sys.push]
  | cons p l ih =>
    rw [Sys.push]
    have hp := hl p (by simp)
    split
    · rw [ih]
      · rw [setData_known]
        simp only [List.mem_cons]
        grind
      · intro q hq
        rw [setData_known]
        exact Or.inl (hl q (by simp [hq]))
    · next hdata =>
      obtain ⟨o, ho⟩ : ∃ o, s.owner r p = some o := by
        simp only [Sys.known, Bool.or_eq_true] at hp
        exact Option.isSome_iff_exists.1 (hp.resolve_left hdata)
      rw [ho, ih]
      · rw [setOwner_known]
        simp only [List.mem_cons]
        grind
      · intro q hq
        rw [setOwner_known]
        exact Or.inl (hl q (by simp [hq]))

/-- What has to hold after the history `ops`. -/
structure Inv (ops : List Op) (s : Sys) : Prop where
  known : ∀ r p, s.known r p = true ↔ Told ops r p ∨ (Sent ops r p ∧ ∀ t ∈ s.tasks r, t.out ≠ p)
  tasks : ∀ r t, t ∈ s.tasks r → Sent ops r t.out ∧ t.out < s.next
  outs : ∀ r, ((s.tasks r).map Task.out).Nodup
  below : ∀ r p, Told ops r p ∨ Sent ops r p → p < s.next
  held : ∀ r p, p ∈ s.held r → p < s.next
  args : ∀ r t, t ∈ s.tasks r → (∀ p ∈ t.args, p < s.next) ∧ ∀ p ∈ t.inside, p < s.next
  content : ∀ q p, p ∈ s.content q → p < s.next

theorem inv_init : Inv [] Sys.init where
  known := by simp [Sys.init, Sys.known, Told, Sent]
  tasks := by simp [Sys.init]
  outs := by simp [Sys.init]
  below := by simp [Told, Sent]
  held := by simp [Sys.init]
  args := by simp [Sys.init]
  content := by simp [Sys.init]

theorem told_put (ops : List Op) (r n : Nat) (c : List Nat) (r' p : Nat) :
    Told (ops ++ [.put r n c]) r' p ↔ Told ops r' p ∨ (r' = r ∧ p = n) := by
  simp only [Told, List.mem_append, List.mem_singleton, Op.put.injEq, reduceCtorEq, or_false]
  constructor
  · rintro (⟨d, h | ⟨h1, h2, -⟩⟩ | h)
    · exact Or.inl (Or.inl ⟨d, h⟩)
    · exact Or.inr ⟨h1, h2⟩
    · exact Or.inl (Or.inr h)
  · rintro ((⟨d, h⟩ | h) | ⟨h1, h2⟩)
    · exact Or.inl ⟨d, Or.inl h⟩
    · exact Or.inr h
    · exact Or.inl ⟨c, Or.inr ⟨h1, h2, rfl⟩⟩

theorem sent_put (ops : List Op) (r n : Nat) (c : List Nat) (r' p : Nat) :
    Sent (ops ++ [.put r n c]) r' p ↔ Sent ops r' p := by
  simp [Sent]

theorem told_submit (ops : List Op) (r d n : Nat) (a i : List Nat) (r' p : Nat) :
    Told (ops ++ [.submit r d n a i]) r' p ↔ Told ops r' p ∨ (r' = r ∧ p = n) ∨ (r' = d ∧ p ∈ a) := by
  simp only [Told, List.mem_append, List.mem_singleton, Op.submit.injEq, reduceCtorEq, or_false]
  constructor
  · rintro (h | ⟨d', a', i', h | ⟨h1, h2, h3, -⟩⟩ | ⟨q, m, a', i', h | ⟨h1, h2, h3, h4, h5⟩, hp⟩)
    · exact Or.inl (Or.inl h)
    · exact Or.inl (Or.inr (Or.inl ⟨d', a', i', h⟩))
    · exact Or.inr (Or.inl ⟨h1, h3⟩)
    · exact Or.inl (Or.inr (Or.inr ⟨q, m, a', i', h, hp⟩))
    · exact Or.inr (Or.inr ⟨h2, h4 ▸ hp⟩)
  · rintro ((h | ⟨d', a', i', h⟩ | ⟨q, m, a', i', h, hp⟩) | ⟨h1, h2⟩ | ⟨h1, h2⟩)
    · exact Or.inl h
    · exact Or.inr (Or.inl ⟨d', a', i', Or.inl h⟩)
    · exact Or.inr (Or.inr ⟨q, m, a', i', Or.inl h, hp⟩)
    · exact Or.inr (Or.inl ⟨d, a, i, Or.inr ⟨h1, rfl, h2, rfl, rfl⟩⟩)
    · exact Or.inr (Or.inr ⟨r, n, a, i, Or.inr ⟨rfl, h1, rfl, rfl, rfl⟩, h2⟩)

theorem sent_submit (ops : List Op) (r d n : Nat) (a i : List Nat) (r' p : Nat) :
    Sent (ops ++ [.submit r d n a i]) r' p ↔ Sent ops r' p ∨ (r' = d ∧ p = n) := by
  simp only [Sent, List.mem_append, List.mem_singleton, Op.submit.injEq]
  constructor
  · rintro ⟨q, a', i', h | ⟨h1, h2, h3, -⟩⟩
    · exact Or.inl ⟨q, a', i', h⟩
    · exact Or.inr ⟨h2, h3⟩
  · rintro (⟨q, a', i', h⟩ | ⟨h1, h2⟩)
    · exact ⟨q, a', i', Or.inl h⟩
    · exact ⟨r, a, i, Or.inr ⟨rfl, h1, h2, rfl, rfl⟩⟩

theorem told_other (ops : List Op) (op : Op) (h1 : ∀ r n c, op ≠ .put r n c) (h2 : ∀ r d n a i, op ≠ .submit r d n a i)
    (r p : Nat) : (Told (ops ++ [op]) r p ↔ Told ops r p) ∧ (Sent (ops ++ [op]) r p ↔ Sent ops r p) := by
  cases op with
  | put r n c => exact absurd rfl (h1 r n c)
  | submit r d n a i => exact absurd rfl (h2 r d n a i)
  | work r i c => simp [Told, Sent]
  | fetch r p => simp [Told, Sent]
  | get r p => simp [Told, Sent]

theorem hold_known (s : Sys) (r : Nat) (ps : List Nat) (r' p : Nat) : (s.hold r ps).known r' p = s.known r' p := rfl

theorem mem_hold {s : Sys} {r : Nat} {ps : List Nat} {r' p : Nat} (h : p ∈ (s.hold r ps).held r') :
    p ∈ ps ∨ p ∈ s.held r' := by
  simp only [Sys.hold] at h
  split at h
  · simpa using h
  · exact Or.inr h

theorem inv_step {ops : List Op} {s s' : Sys} (op : Op) (hi : Inv ops s) (h : s.step op = some s') :
    Inv (ops ++ [op]) s' := by
  cases op with
  | put r new c =>
    simp only [Sys.step] at h
    split at h
    · next hc =>
      obtain ⟨hn, hc⟩ := hc
      subst hn
      injection h with h
      subst h
      refine ⟨?_, ?_, hi.outs, ?_, ?_, ?_, ?_⟩
      · intro r' p
        rw [told_put, sent_put]
        show ((s.setData r s.next).hold r [s.next]).known r' p = true ↔ _
        rw [hold_known, setData_known, hi.known]
        simp only [Sys.setData, Sys.hold]
        grind
      · intro r' t ht
        obtain ⟨h1, h2⟩ := hi.tasks r' t ht
        exact ⟨h1.snoc _, Nat.lt_succ_of_lt h2⟩
      · intro r' p hp
        rw [told_put, sent_put] at hp
        have := hi.below r' p
        simp only
        grind
      · intro r' p hp
        rcases mem_hold hp with hp | hp
        · simp at hp; simp only; omega
        · exact Nat.lt_succ_of_lt (hi.held r' p hp)
      · intro r' t ht
        obtain ⟨h1, h2⟩ := hi.args r' t ht
        exact ⟨fun p hp => Nat.lt_succ_of_lt (h1 p hp), fun p hp => Nat.lt_succ_of_lt (h2 p hp)⟩
      · intro q p hp
        simp only at hp ⊢
        split at hp
        · have := hi.held r p (by simpa using List.all_eq_true.1 hc p hp)
          omega
        · exact Nat.lt_succ_of_lt (hi.content q p hp)
    · cases h
  | submit r d new a i =>
    simp only [Sys.step] at h
    split at h
    · next hc =>
      obtain ⟨hn, hd, hh, hr⟩ := hc
      subst hn
      injection h with h
      have hk : ∀ p ∈ a, s.known r p = true := by
        intro p hp
        simp only [Sys.submitRaises, List.any_eq_false] at hr
        simpa using hr p hp
      have hb : ∀ p ∈ a ++ i, p < s.next := fun p hp => hi.held r p (by simpa using List.all_eq_true.1 hh p hp)
      have hf := push_fields r d a s
      have ht : ∀ r' t, t ∈ s'.tasks r' → t ∈ s.tasks r' ∨ (r' = d ∧ t = ⟨s.next, a, i⟩) := by
        intro r' t ht
        rw [← h] at ht
        simp only at ht
        split at ht
        · next hr' => simp only [List.mem_append, List.mem_singleton] at ht; exact ht.imp id fun e => ⟨hr', e⟩
        · exact Or.inl ht
      have ht' : ∀ r' t, t ∈ s.tasks r' ∨ (r' = d ∧ t = ⟨s.next, a, i⟩) → t ∈ s'.tasks r' := by
        intro r' t ht
        rw [← h]
        simp only
        rcases ht with ht | ⟨rfl, rfl⟩
        · split
          · simp [ht]
          · exact ht
        · simp
      have hnext : s'.next = s.next + 1 := by rw [← h]
      refine ⟨?_, ?_, ?_, ?_, ?_, ?_, ?_⟩
      · intro r' p
        rw [told_submit, sent_submit]
        have hkn : s'.known r' p = true ↔ s.known r' p = true ∨ (r' = d ∧ p ∈ a) ∨ (r' = r ∧ p = s.next) := by
          rw [← h]
          show (((s.push r d a).setOwner r s.next (some d)).hold r [s.next]).known r' p = true ↔ _
          rw [hold_known, setOwner_known, push_known a s hk]
          grind
        rw [hkn, hi.known]
        constructor
        · rintro ((h1 | ⟨h1, h2⟩) | h1 | h1)
          · exact Or.inl (Or.inl h1)
          · refine Or.inr ⟨Or.inl h1, fun t hm => ?_⟩
            rcases ht r' t hm with hm | ⟨_, rfl⟩
            · exact h2 t hm
            · have := hi.below r' p (Or.inr h1)
              simp only
              omega
          · exact Or.inl (Or.inr (Or.inr h1))
          · exact Or.inl (Or.inr (Or.inl h1))
        · rintro ((h1 | h1 | h1) | ⟨h1 | ⟨h1, h2⟩, h3⟩)
          · exact Or.inl (Or.inl h1)
          · exact Or.inr (Or.inr h1)
          · exact Or.inr (Or.inl h1)
          · exact Or.inl (Or.inr ⟨h1, fun t hm => h3 t (ht' r' t (Or.inl hm))⟩)
          · exact absurd h2.symm (h3 _ (ht' r' _ (Or.inr ⟨h1, rfl⟩)))
      · intro r' t hm
        rw [sent_submit]
        rcases ht r' t hm with hm | ⟨h1, rfl⟩
        · obtain ⟨h1, h2⟩ := hi.tasks r' t hm
          exact ⟨Or.inl h1, by omega⟩
        · exact ⟨Or.inr ⟨h1, rfl⟩, by simp only; omega⟩
      · intro r'
        rw [← h]
        simp only
        split
        · rw [List.map_append, List.nodup_append]
          refine ⟨hi.outs r', by simp, ?_⟩
          intro x hx y hy
          obtain ⟨t, h1, rfl⟩ := List.mem_map.1 hx
          simp at hy
          have := (hi.tasks r' t h1).2
          omega
        · exact hi.outs r'
      · intro r' p hp
        rw [told_submit, sent_submit] at hp
        have := hi.below r' p
        have := hb p
        simp only [List.mem_append] at this
        rw [hnext]
        grind
      · intro r' p hp
        rw [← h] at hp
        rw [hnext]
        rcases mem_hold hp with hp | hp
        · simp at hp; omega
        · simp only [Sys.setOwner, hf.1] at hp
          exact Nat.lt_succ_of_lt (hi.held r' p hp)
      · intro r' t hm
        rw [hnext]
        rcases ht r' t hm with hm | ⟨h1, rfl⟩
        · obtain ⟨h1, h2⟩ := hi.args r' t hm
          exact ⟨fun p hp => Nat.lt_succ_of_lt (h1 p hp), fun p hp => Nat.lt_succ_of_lt (h2 p hp)⟩
        · exact ⟨fun p hp => Nat.lt_succ_of_lt (hb p (by simp [hp])), fun p hp => Nat.lt_succ_of_lt (hb p (by simp [hp]))⟩
      · intro q p hp
        rw [← h] at hp
        simp only [Sys.hold, Sys.setOwner, hf.2.2.1] at hp
        rw [hnext]
        exact Nat.lt_succ_of_lt (hi.content q p hp)
    · cases h
  | work r i c =>
    simp only [Sys.step] at h
    split at h
    · cases h
    · next t ht =>
      have htm := List.mem_of_getElem? ht
      split at h
      · next hc =>
        injection h with h
        subst h
        have hseen : ∀ p, p ∈ t.inside ++ t.args.flatMap s.content → p < s.next := by
          intro p hp
          simp only [List.mem_append, List.mem_flatMap] at hp
          rcases hp with hp | ⟨q, _, hp⟩
          · exact (hi.args r t htm).2 p hp
          · exact hi.content q p hp
        have hheld : ∀ r' p, p ∈ (s.hold r (t.inside ++ t.args.flatMap s.content)).held r' → p < s.next := by
          intro r' p hp
          rcases mem_hold hp with hp | hp
          · exact hseen p hp
          · exact hi.held r' p hp
        have hsub : ∀ r' u, u ∈ (if r' = r then (s.tasks r').eraseIdx i else s.tasks r') → u ∈ s.tasks r' := by
          intro r' u hu
          split at hu
          · exact List.mem_of_mem_eraseIdx hu
          · exact hu
        have hout : ∀ u, u ∈ (s.tasks r).eraseIdx i → u.out ≠ t.out := by
          intro u hu he
          obtain ⟨j, hj, hu⟩ := List.mem_eraseIdx_iff_getElem?.1 hu
          have hnd := hi.outs r
          have h1 : ((s.tasks r).map Task.out)[j]? = some t.out := by simp [hu, he]
          have h2 : ((s.tasks r).map Task.out)[i]? = some t.out := by simp [ht]
          obtain ⟨hj1, hj2⟩ := List.getElem?_eq_some_iff.1 h1
          obtain ⟨hi1, hi2⟩ := List.getElem?_eq_some_iff.1 h2
          have hpw := List.pairwise_iff_getElem.1 hnd
          rcases Nat.lt_trichotomy j i with hlt | hlt | hlt
          · exact hpw j i hj1 hi1 hlt (hj2.trans hi2.symm)
          · exact hj hlt
          · exact hpw i j hi1 hj1 hlt (hi2.trans hj2.symm)
        have hto := told_other ops (.work r i c) (by simp) (by simp)
        refine ⟨?_, ?_, ?_, ?_, hheld, ?_, ?_⟩
        · intro r' p
          rw [(hto r' p).1, (hto r' p).2]
          show ((s.hold r _).setData r t.out).known r' p = true ↔ _
          rw [setData_known, hold_known, hi.known]
          simp only
          constructor
          · rintro ((h1 | ⟨h1, h2⟩) | ⟨h1, h2⟩)
            · exact Or.inl h1
            · exact Or.inr ⟨h1, fun u hu => h2 u (hsub r' u hu)⟩
            · subst h1 h2
              refine Or.inr ⟨(hi.tasks r' t htm).1, fun u hu => ?_⟩
              rw [if_pos rfl] at hu
              exact hout u hu
          · rintro (h1 | ⟨h1, h2⟩)
            · exact Or.inl (Or.inl h1)
            · by_cases hrp : r' = r ∧ p = t.out
              · exact Or.inr hrp
              · refine Or.inl (Or.inr ⟨h1, fun u hu he => ?_⟩)
                refine h2 u ?_ he
                by_cases hr : r' = r
                · rw [if_pos hr]
                  subst hr
                  obtain ⟨j, hj⟩ := List.getElem?_of_mem hu
                  rw [List.mem_eraseIdx_iff_getElem?]
                  refine ⟨j, fun hji => ?_, hj⟩
                  rw [hji, ht] at hj
                  injection hj with hj
                  exact hrp ⟨rfl, by rw [← he, hj]⟩
                · rw [if_neg hr]; exact hu
        · intro r' u hu
          obtain ⟨h1, h2⟩ := hi.tasks r' u (hsub r' u hu)
          exact ⟨h1.snoc _, h2⟩
        · intro r'
          simp only
          split
          · exact (List.Sublist.map _ (List.eraseIdx_sublist _ _)).nodup (hi.outs r')
          · exact hi.outs r'
        · intro r' p hp
          rw [(hto r' p).1, (hto r' p).2] at hp
          exact hi.below r' p hp
        · intro r' u hu
          exact hi.args r' u (hsub r' u hu)
        · intro q p hp
          simp only at hp
          split at hp
          · exact hheld r p (by simpa using List.all_eq_true.1 hc.2 p hp)
          · exact hi.content q p hp
      · cases h
  | fetch r p =>
    simp only [Sys.step] at h
    split at h
    · cases h
    · next o ho =>
      split at h
      · injection h with h
        subst h
        have hto := told_other ops (.fetch r p) (by simp) (by simp)
        refine ⟨?_, ?_, hi.outs, ?_, hi.held, hi.args, hi.content⟩
        · intro r' q
          rw [(hto r' q).1, (hto r' q).2, setData_known]
          have hkn : s.known r p = true := by simp [Sys.known, ho]
          refine Iff.trans ?_ (hi.known r' q)
          constructor
          · rintro (h1 | ⟨h1, h2⟩)
            · exact h1
            · rw [h1, h2]; exact hkn
          · exact Or.inl
        · intro r' t ht
          exact ⟨(hi.tasks r' t ht).1.snoc _, (hi.tasks r' t ht).2⟩
        · intro r' q hq
          rw [(hto r' q).1, (hto r' q).2] at hq
          exact hi.below r' q hq
      · cases h
  | get r p =>
    simp only [Sys.step] at h
    split at h
    · injection h with h
      subst h
      have hto := told_other ops (.get r p) (by simp) (by simp)
      refine ⟨?_, ?_, hi.outs, ?_, ?_, hi.args, hi.content⟩
      · intro r' q
        rw [(hto r' q).1, (hto r' q).2, hold_known]
        exact hi.known r' q
      · intro r' t ht
        exact ⟨(hi.tasks r' t ht).1.snoc _, (hi.tasks r' t ht).2⟩
      · intro r' q hq
        rw [(hto r' q).1, (hto r' q).2] at hq
        exact hi.below r' q hq
      · intro r' q hq
        rcases mem_hold hq with hq | hq
        · exact hi.content p q hq
        · exact hi.held r' q hq
    · cases h

theorem inv_run {ops : List Op} : ∀ {past : List Op} {s s' : Sys}, Inv past s → s.run ops = some s' →
    Inv (past ++ ops) s' := by
  induction ops with
  | nil => intro past s s' hi h; simp only [Sys.run, Option.some.injEq] at h; subst h; simpa using hi
  | cons op ops ih =>
    intro past s s' hi h
    rw [Sys.run] at h
    split at h
    · next s1 h1 => simpa using ih (inv_step op hi h1) h
    · cases h

/-- No value contains references and no reference is hidden in another object. -/
def Open : Op → Prop
  | .put _ _ c => c = []
  | .submit _ _ _ _ i => i = []
  | .work _ _ c => c = []
  | _ => True

/-- In an open history, code holds only what its process knows. -/
structure Plain (s : Sys) : Prop where
  held : ∀ r p, p ∈ s.held r → s.known r p = true
  tasks : ∀ r t, t ∈ s.tasks r → t.inside = []
  content : ∀ p, s.content p = []

theorem plain_step {s s' : Sys} (op : Op) (ho : Open op) (hi : Plain s) (h : s.step op = some s') : Plain s' := by
  cases op with
  | put r new c =>
    simp only [Sys.step] at h
    split at h
    · injection h with h
      subst h
      refine ⟨?_, hi.tasks, ?_⟩
      · intro r' p hp
        show ((s.setData r new).hold r [new]).known r' p = true
        rw [hold_known, setData_known]
        simp only [Sys.hold, Sys.setData] at hp
        split at hp
        · next hr =>
          simp only [List.singleton_append, List.mem_cons] at hp
          rcases hp with hp | hp
          · exact Or.inr ⟨hr, hp⟩
          · exact Or.inl (hi.held r' p hp)
        · exact Or.inl (hi.held r' p hp)
      · intro p
        simp only
        split
        · exact ho
        · exact hi.content p
    · cases h
  | submit r d new a i =>
    simp only [Sys.step] at h
    split at h
    · next hc =>
      obtain ⟨_, hd, _, hr⟩ := hc
      have hk : ∀ p ∈ a, s.known r p = true := by
        intro p hp
        simp only [Sys.submitRaises, List.any_eq_false] at hr
        simpa using hr p hp
      have hf := push_fields r d a s
      injection h with h
      subst h
      refine ⟨?_, ?_, ?_⟩
      · intro r' p hp
        show (((s.push r d a).setOwner r new (some d)).hold r [new]).known r' p = true
        rw [hold_known, setOwner_known, push_known a s hk]
        simp only [Sys.hold, Sys.setOwner, hf.1] at hp
        split at hp
        · next hr =>
          simp only [List.singleton_append, List.mem_cons] at hp
          rcases hp with hp | hp
          · exact Or.inr ⟨hr, hp⟩
          · exact Or.inl (Or.inl (hi.held r' p hp))
        · exact Or.inl (Or.inl (hi.held r' p hp))
      · intro r' t ht
        simp only at ht
        split at ht
        · simp only [List.mem_append, List.mem_singleton] at ht
          rcases ht with ht | ht
          · exact hi.tasks r' t ht
          · subst ht; exact ho
        · exact hi.tasks r' t ht
      · intro p
        simp only [Sys.hold, Sys.setOwner, hf.2.2.1]
        exact hi.content p
    · cases h
  | work r i c =>
    simp only [Sys.step] at h
    split at h
    · cases h
    · next t ht =>
      split at h
      · injection h with h
        subst h
        refine ⟨?_, ?_, ?_⟩
        · intro r' p hp
          show ((s.hold r _).setData r t.out).known r' p = true
          rw [setData_known, hold_known]
          rcases mem_hold hp with hp | hp
          · simp only [hi.tasks r t (List.mem_of_getElem? ht), List.nil_append, List.mem_flatMap] at hp
            obtain ⟨q, _, hq⟩ := hp
            rw [hi.content q] at hq
            cases hq
          · exact Or.inl (hi.held r' p hp)
        · intro r' u hu
          simp only at hu
          split at hu
          · exact hi.tasks r' u (List.mem_of_mem_eraseIdx hu)
          · exact hi.tasks r' u hu
        · intro p
          simp only
          split
          · exact ho
          · exact hi.content p
      · cases h
  | fetch r p =>
    simp only [Sys.step] at h
    split at h
    · cases h
    · split at h
      · injection h with h
        subst h
        refine ⟨fun r' q hq => ?_, hi.tasks, hi.content⟩
        rw [setData_known]
        exact Or.inl (hi.held r' q hq)
      · cases h
  | get r p =>
    simp only [Sys.step] at h
    split at h
    · injection h with h
      subst h
      refine ⟨fun r' q hq => ?_, hi.tasks, hi.content⟩
      rw [hold_known]
      rcases mem_hold hq with hq | hq
      · rw [hi.content p] at hq; cases hq
      · exact hi.held r' q hq
    · cases h

theorem plain_run {ops : List Op} : ∀ {s s' : Sys}, Plain s → (∀ op ∈ ops, Open op) → s.run ops = some s' → Plain s' := by
  induction ops with
  | nil => intro s s' hi _ h; simp only [Sys.run, Option.some.injEq] at h; exact h ▸ hi
  | cons op ops ih =>
    intro s s' hi ho h
    rw [Sys.run] at h
    split at h
    · next s1 h1 =>
      exact ih (plain_step op (ho op (by simp)) hi h1) (fun o hm => ho o (List.mem_cons_of_mem _ hm)) h
    · cases h

end Verif.Reach
