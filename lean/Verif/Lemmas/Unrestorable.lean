import Verif.Model.Unrestorable
import Mathlib.Data.List.Induction
import Mathlib.Data.List.Perm.Subperm

/-! Lemmas about results that cannot be restored. -/
namespace Verif.Unrestorable

variable {p : Prog}

theorem run_append (as bs : List Act) (s : State) : s.run p (as ++ bs) = (s.run p as).bind fun t => t.run p bs := by
  induction as generalizing s with
  | nil => rfl
  | cons a as ih =>
    simp only [List.cons_append, State.run]
    cases s.step p a with
    | none => rfl
    | some t => exact ih t

theorem run_concat {as : List Act} {a : Act} {s s' : State} (h : s.run p (as ++ [a]) = some s') :
    ∃ t, s.run p as = some t ∧ t.step p a = some s' := by
  rw [run_append, Option.bind_eq_some_iff] at h
  obtain ⟨t, ht, h⟩ := h
  simp only [State.run, Option.bind_eq_some_iff] at h
  obtain ⟨u, hu, h⟩ := h
  cases h
  exact ⟨t, ht, hu⟩

/-- The state of the main process while only results are asked for that can be restored. -/
structure Inv (p : Prog) (s : State) : Prop where
  idle : s.getting = none → s.mail = [] ∧ s.asked = [] ∧ ∀ j ∈ s.sent, j ∈ s.root
  busy : ∀ r c, s.getting = some (r, c) → r.Nodup ∧ (∀ j ∈ r, p.bad j = false) ∧ c < r.length ∧ (∀ j ∈ s.sent, j ∈ s.root ∨ j ∈ s.mail) ∧
    (∀ j ∈ s.asked, j ∉ s.sent) ∧ ∃ taken : List Nat, (taken ++ (s.mail ++ s.asked)).Perm r ∧ c = taken.length ∧ ∀ j ∈ taken, j ∈ s.root
  log : ∀ o ∈ s.log, o = .values

theorem inv_init : Inv p .init := ⟨fun _ => ⟨rfl, rfl, by simp [State.init]⟩, by simp [State.init], by simp [State.init]⟩

theorem inv_same {s s' : State} (h : Inv p s) (h1 : s'.getting = s.getting) (h2 : s'.mail = s.mail) (h3 : s'.asked = s.asked) (h4 : s'.sent = s.sent)
    (h5 : s'.root = s.root) (h6 : s'.log = s.log) : Inv p s' := by
  refine ⟨?_, ?_, ?_⟩
  · rw [h1, h2, h3, h4, h5]; exact h.idle
  · rw [h1, h2, h3, h4, h5]; exact h.busy
  · rw [h6]; exact h.log

theorem inv_step {s s' : State} {a : Act} (h : Inv p s) (ha : ∀ ids, a = .get ids → ∀ j ∈ ids, p.bad j = false) (hs : s.step p a = some s') : Inv p s' := by
  cases a with
  | exec i =>
    simp only [State.step] at hs
    split at hs
    · cases hs; exact inv_same h rfl rfl rfl rfl rfl rfl
    · cases hs
  | ship j i =>
    simp only [State.step] at hs
    split at hs
    · split at hs <;> cases hs <;> exact inv_same h rfl rfl rfl rfl rfl rfl
    · cases hs
  | get ids =>
    simp only [State.step] at hs
    split at hs
    · rename_i hc
      obtain ⟨h1, h2, h3⟩ := h.idle hc.1
      split at hs
      · cases hs
        refine ⟨h.idle, h.busy, fun o ho => ?_⟩
        rcases List.mem_append.1 ho with ho | ho
        · exact h.log o ho
        · exact List.mem_singleton.1 ho
      · rename_i hne
        cases hs
        refine ⟨by simp, fun r c e => ?_, h.log⟩
        simp only [Option.some.injEq, Prod.mk.injEq] at e
        obtain ⟨e1, e2⟩ := e
        subst e1; subst e2
        refine ⟨hc.2.filter _, fun j hj => ha ids rfl j (List.mem_of_mem_filter hj), List.length_pos_of_ne_nil hne, fun j hj => .inl (h3 j hj), ?_, [], ?_, rfl,
          by simp⟩
        · intro j hj hsent
          simp only [h2, List.nil_append] at hj
          have := List.of_mem_filter hj
          simp at this
          exact this (h3 j hsent)
        · simp [h1, h2]
    · cases hs
  | reply j =>
    simp only [State.step] at hs
    split at hs
    · rename_i hc
      cases hg : s.getting with
      | none => rw [(h.idle hg).2.1] at hc; exact absurd hc.1 (by simp)
      | some rc =>
        obtain ⟨r, c⟩ := rc
        obtain ⟨b1, b2, b3, b4, b5, taken, b6, b7, b8⟩ := h.busy r c hg
        rw [if_neg (b5 j hc.1)] at hs
        cases hs
        refine ⟨by simp [hg], fun r' c' e => ?_, h.log⟩
        simp only [hg, Option.some.injEq, Prod.mk.injEq] at e
        obtain ⟨e1, e2⟩ := e
        subst e1; subst e2
        have hnd : s.asked.Nodup := by
          have := b6.nodup_iff.2 b1
          exact (List.nodup_append.1 (List.nodup_append.1 this).2.1).2.1
        refine ⟨b1, b2, b3, ?_, ?_, taken, ?_, b7, b8⟩
        · intro k hk
          simp only [List.mem_append, List.mem_singleton] at hk ⊢
          rcases hk with hk | hk
          · rcases b4 k hk with h | h
            · exact .inl h
            · exact .inr (.inl h)
          · exact .inr (.inr hk)
        · intro k hk hsent
          have hk' := (hnd.mem_erase_iff.1 hk)
          rcases List.mem_append.1 hsent with h | h
          · exact b5 k hk'.2 h
          · exact hk'.1 (List.mem_singleton.1 h)
        · refine List.Perm.trans (List.Perm.append_left _ ?_) b6
          simp only [List.append_assoc, List.singleton_append]
          exact List.Perm.append_left _ (List.perm_cons_erase hc.1).symm
    · cases hs
  | take =>
    simp only [State.step] at hs
    split at hs
    · rename_i r c j rest hg hm
      obtain ⟨b1, b2, b3, b4, b5, taken, b6, b7, b8⟩ := h.busy r c hg
      have hjr : j ∈ r := b6.subset (by simp [hm])
      rw [if_neg (by simp [b2 j hjr]), if_pos hjr] at hs
      have hperm : ((taken ++ [j]) ++ (rest ++ s.asked)).Perm r := by
        refine List.Perm.trans ?_ b6
        rw [hm]; simp
      have hlen := hperm.length_eq
      simp only [List.length_append, List.length_singleton] at hlen
      have hsent : ∀ k ∈ s.sent, k ∈ s.root ++ [j] ∨ k ∈ rest := by
        intro k hk
        rcases b4 k hk with h | h
        · exact .inl (by simp [h])
        · rw [hm] at h
          rcases List.mem_cons.1 h with h | h
          · exact .inl (by simp [h])
          · exact .inr h
      split at hs
      · rename_i hend
        cases hs
        have h1 : rest = [] := List.eq_nil_of_length_eq_zero (by omega)
        have h2 : s.asked = [] := List.eq_nil_of_length_eq_zero (by omega)
        refine ⟨fun _ => ⟨h1, h2, fun k hk => ?_⟩, by simp, fun o ho => ?_⟩
        · rcases hsent k hk with h | h
          · exact h
          · rw [h1] at h; cases h
        · rcases List.mem_append.1 ho with ho | ho
          · exact h.log o ho
          · exact List.mem_singleton.1 ho
      · cases hs
        refine ⟨by simp, fun r' c' e => ?_, h.log⟩
        simp only [Option.some.injEq, Prod.mk.injEq] at e
        obtain ⟨e1, e2⟩ := e
        subst e1; subst e2
        refine ⟨b1, b2, by omega, hsent, b5, taken ++ [j], hperm, by simp [b7], fun k hk => ?_⟩
        rcases List.mem_append.1 hk with hk | hk
        · exact List.mem_append_left _ (b8 k hk)
        · exact List.mem_append_right _ hk
    · cases hs

theorem inv_run (acts : List Act) {s : State} (ha : ∀ ids, Act.get ids ∈ acts → ∀ j ∈ ids, p.bad j = false) (h : State.init.run p acts = some s) : Inv p s := by
  induction acts using List.reverseRecOn generalizing s with
  | nil => cases h; exact inv_init
  | append_singleton as a ih =>
    obtain ⟨t, ht, hs⟩ := run_concat h
    exact inv_step (ih (fun ids hi => ha ids (List.mem_append_left _ hi)) ht) (fun ids e => ha ids (by simp [e])) hs

/-- A `get` of executed tasks of running workers can end. -/
theorem ends {r : List Nat} (n : Nat) : ∀ (s : State) (c : Nat), Inv p s → s.getting = some (r, c) → (∀ j ∈ r, j ∈ s.done ∧ p.place j ∉ s.dead) →
    2 * s.asked.length + s.mail.length = n →
    ∃ more t, s.run p more = some t ∧ t.getting = none ∧ t.log = s.log ++ [.values] ∧ ∀ ids, Act.get ids ∉ more := by
  induction n using Nat.strongRecOn with
  | _ n ih =>
    intro s c hi hg hd hn
    obtain ⟨b1, b2, b3, b4, b5, taken, b6, b7, b8⟩ := hi.busy r c hg
    cases hm : s.mail with
    | cons j rest =>
      have hjr : j ∈ r := b6.subset (by simp [hm])
      by_cases hend : c + 1 = r.length
      · exact ⟨[.take], _, by simp only [State.run, State.step, hg, hm, b2 j hjr, hjr, hend]; rfl, rfl, rfl, by simp⟩
      · have hstep : s.step p .take = some { s with mail := rest, root := s.root ++ [j], getting := some (r, c + 1) } := by
          simp only [State.step, hg, hm, b2 j hjr, hjr, hend]; rfl
        obtain ⟨more, t, h1, h2, h3, h4⟩ := ih (2 * s.asked.length + rest.length) (by rw [hm] at hn; simp at hn; omega) _ (c + 1)
          (inv_step hi (by simp) hstep) rfl hd rfl
        refine ⟨.take :: more, t, by rw [State.run, hstep]; exact h1, h2, h3, fun ids hi => ?_⟩
        rcases List.mem_cons.1 hi with hi | hi
        · cases hi
        · exact h4 ids hi
    | nil =>
      cases ha : s.asked with
      | nil =>
        rw [hm, ha] at b6
        have := b6.length_eq
        simp at this
        omega
      | cons j rest =>
        have hja : j ∈ s.asked := by rw [ha]; simp
        have hjr : j ∈ r := b6.subset (by simp [ha])
        have hstep : s.step p (.reply j) = some { s with asked := s.asked.erase j, sent := s.sent ++ [j], mail := s.mail ++ [j] } := by
          simp only [State.step]
          rw [if_pos ⟨hja, hd j hjr⟩, if_neg (b5 j hja)]
        have hl := List.length_erase_of_mem hja
        have hpos : 0 < s.asked.length := List.length_pos_of_mem hja
        obtain ⟨more, t, h1, h2, h3, h4⟩ := ih (2 * (s.asked.erase j).length + (s.mail ++ [j]).length) (by simp; omega) _ c
          (inv_step hi (by simp) hstep) hg hd rfl
        refine ⟨.reply j :: more, t, by rw [State.run, hstep]; exact h1, h2, h3, fun ids hi => ?_⟩
        rcases List.mem_cons.1 hi with hi | hi
        · cases hi
        · exact h4 ids hi

end Verif.Unrestorable
