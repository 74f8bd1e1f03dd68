import Verif.Lemmas.NestedLive
import Mathlib.Data.List.Perm.Subperm
import Mathlib.Data.List.Nodup

/-! Who created which reference, and what a deadlock of nested calls looks like (C88). -/
namespace Verif.Nested
open Verif.Spec

/-- Every reference belongs to one running program, and its task is in one place. -/
structure Own (s : State) : Prop where
  lt : ∀ r p, (s.store r p).isSome → p < s.next
  envs : ∀ r f r' f' p, s.run r = some f → s.run r' = some f' → p ∈ f.env → p ∈ f'.env → r = r'
  own : ∀ r f p, s.run r = some f → p ∈ f.env → s.home p = r → (s.store r p).isSome
  args : ∀ q t, t ∈ s.inbox q → ∀ r f, s.run r = some f → t.out ∈ f.env → ∀ p, Sent.ref p ∈ t.args →
    p ∈ f.env ∧ (s.home p = r → (s.store q p).isSome)
  out : ∀ q t, t ∈ s.inbox q → (∀ r, s.store r t.out = none) ∧ ∀ f, s.run q = some f → q ≠ 0 → f.out ≠ t.out
  outs : ∀ q, ((s.inbox q).map (·.out)).Nodup
  runOut : ∀ r f, s.run r = some f → r ≠ 0 → (∀ r', s.store r' f.out = none) ∧ s.home f.out = r ∧ f.out < s.next

theorem own_init (W : World) : Own (State.init W) where
  lt := by simp [State.init]
  envs := by
    intro r f r' f' p h h' hp
    simp only [State.init] at h
    split at h
    · injection h with h
      subst h
      cases hp
    · cases h
  own := by
    intro r f p h hp
    simp only [State.init] at h
    split at h
    · injection h with h
      subst h
      cases hp
    · cases h
  args := by simp [State.init]
  out := by simp [State.init]
  outs := by simp [State.init]
  runOut := by
    intro r f h hr
    simp [State.init, hr] at h

/-- A value that is known already arrives at another process. -/
theorem Own.put {s : State} (hi : Own s) (r p : Nat) (v : Val) {q : Nat} (hq : (s.store q p).isSome) : Own (s.put r p v) where
  lt := by
    intro r' p' h
    simp only [State.put] at h
    split at h
    · next hc => exact hi.lt q p' (hc.2 ▸ hq)
    · exact hi.lt r' p' h
  envs := hi.envs
  own := fun r' f p' h1 h2 h3 => put_keeps s r p v _ _ (hi.own r' f p' h1 h2 h3)
  args := by
    intro q' t ht r' f hf ho p' hp'
    obtain ⟨h1, h2⟩ := hi.args q' t ht r' f hf ho p' hp'
    exact ⟨h1, fun h => put_keeps s r p v _ _ (h2 h)⟩
  out := by
    intro q' t ht
    obtain ⟨h1, h2⟩ := hi.out q' t ht
    refine ⟨fun r' => ?_, h2⟩
    simp only [State.put]
    split
    · next hc =>
      have := h1 q
      rw [hc.2] at this
      simp [this] at hq
    · exact h1 r'
  outs := hi.outs
  runOut := by
    intro r' f hf hr'
    obtain ⟨h1, h2, h3⟩ := hi.runOut r' f hf hr'
    refine ⟨fun r'' => ?_, h2, h3⟩
    simp only [State.put]
    split
    · next hc =>
      have := h1 q
      rw [hc.2] at this
      simp [this] at hq
    · exact h1 r''

/-- A program goes on without new references. -/
theorem Own.goOn {s : State} (hi : Own s) {r : Nat} {f : Frame} (prog : Prog) (hrun : s.run r = some f) :
    Own (s.setRun r (some ⟨f.out, prog, f.env⟩)) := by
  have back : ∀ r' g, (s.setRun r (some ⟨f.out, prog, f.env⟩)).run r' = some g →
      ∃ g', s.run r' = some g' ∧ g'.out = g.out ∧ g'.env = g.env := by
    intro r' g hg
    simp only [State.setRun] at hg
    split at hg
    · next hr =>
      injection hg with hg
      subst hg
      exact ⟨f, hr ▸ hrun, rfl, rfl⟩
    · exact ⟨g, hg, rfl, rfl⟩
  refine ⟨hi.lt, ?_, ?_, ?_, ?_, hi.outs, ?_⟩
  · intro r1 f1 r2 f2 p h1 h2 hp1 hp2
    obtain ⟨g1, h1, _, e1⟩ := back _ _ h1
    obtain ⟨g2, h2, _, e2⟩ := back _ _ h2
    exact hi.envs r1 g1 r2 g2 p h1 h2 (e1 ▸ hp1) (e2 ▸ hp2)
  · intro r1 f1 p h1 hp
    obtain ⟨g1, h1, _, e1⟩ := back _ _ h1
    exact hi.own r1 g1 p h1 (e1 ▸ hp)
  · intro q t ht r1 f1 h1 ho p hp
    obtain ⟨g1, h1, _, e1⟩ := back _ _ h1
    rw [← e1]
    exact hi.args q t ht r1 g1 h1 (e1 ▸ ho) p hp
  · intro q t ht
    obtain ⟨h1, h2⟩ := hi.out q t ht
    refine ⟨h1, fun f1 hf1 hq => ?_⟩
    obtain ⟨g1, hg1, e1, _⟩ := back _ _ hf1
    exact e1 ▸ h2 g1 hg1 hq
  · intro r1 f1 h1 hr1
    obtain ⟨g1, h1, e1, _⟩ := back _ _ h1
    rw [← e1]
    exact hi.runOut r1 g1 h1 hr1

theorem own_step {W : World} {Q : Prog → Prop} {s s' : State} (a : Act) (hp : Place W Q s) (hi : Own s)
    (h : s.step W a = some s') : Own s' := by
  have fresh : ∀ r, s.store r s.next = none := by
    intro r
    cases hs : s.store r s.next with
    | none => rfl
    | some v => exact absurd (hi.lt r s.next (by simp [hs])) (Nat.lt_irrefl _)
  cases a with
  | exec r dest =>
    simp only [State.step, State.exec] at h
    split at h
    · cases h
    · next out v env hrun =>
      split at h
      · next hr0 =>
        subst hr0
        injection h with h
        subst h
        have back : ∀ r' g, (s.setRun 0 none).run r' = some g → s.run r' = some g := by
          intro r' g hg
          simp only [State.setRun] at hg
          split at hg
          · cases hg
          · exact hg
        exact ⟨hi.lt, fun r1 f1 r2 f2 p h1 h2 => hi.envs r1 f1 r2 f2 p (back _ _ h1) (back _ _ h2),
          fun r1 f1 p h1 => hi.own r1 f1 p (back _ _ h1), fun q t ht r1 f1 h1 => hi.args q t ht r1 f1 (back _ _ h1),
          fun q t ht => ⟨(hi.out q t ht).1, fun f1 h1 => (hi.out q t ht).2 f1 (back _ _ h1)⟩, hi.outs,
          fun r1 f1 h1 => hi.runOut r1 f1 (back _ _ h1)⟩
      · next hr0 =>
        injection h with h
        subst h
        obtain ⟨o1, o2, o3⟩ := hi.runOut r _ hrun hr0
        simp only at o1 o2 o3
        have back : ∀ r' g, ((s.put r out v).setRun r none).run r' = some g → s.run r' = some g ∧ r' ≠ r := by
          intro r' g hg
          simp only [State.setRun, State.put] at hg
          split at hg
          · cases hg
          · next hne => exact ⟨hg, hne⟩
        refine ⟨?_, ?_, ?_, ?_, ?_, hi.outs, ?_⟩
        · intro r' p hst
          simp only [State.put, State.setRun] at hst ⊢
          split at hst
          · next hc => exact hc.2 ▸ o3
          · exact hi.lt r' p hst
        · exact fun r1 f1 r2 f2 p h1 h2 => hi.envs r1 f1 r2 f2 p (back _ _ h1).1 (back _ _ h2).1
        · exact fun r1 f1 p h1 h2 h3 => put_keeps s r out v _ _ (hi.own r1 f1 p (back _ _ h1).1 h2 h3)
        · intro q t ht r1 f1 h1 ho p hpa
          obtain ⟨a1, a2⟩ := hi.args q t ht r1 f1 (back _ _ h1).1 ho p hpa
          exact ⟨a1, fun hh => put_keeps s r out v _ _ (a2 hh)⟩
        · intro q t ht
          obtain ⟨a1, a2⟩ := hi.out q t ht
          refine ⟨fun r' => ?_, fun f1 h1 => a2 f1 (back _ _ h1).1⟩
          simp only [State.put, State.setRun]
          rw [if_neg]
          · exact a1 r'
          · intro hc
            have hq := (hp.inbox q t ht).1
            rw [hc.2, o2] at hq
            exact a2 _ (hq ▸ hrun) (hq ▸ hr0) hc.2.symm
        · intro r1 f1 h1 hr1
          obtain ⟨b1, b2⟩ := back _ _ h1
          obtain ⟨a1, a2, a3⟩ := hi.runOut r1 f1 b1 hr1
          refine ⟨fun r' => ?_, a2, a3⟩
          simp only [State.put, State.setRun]
          rw [if_neg]
          · exact a1 r'
          · intro hc
            rw [hc.2, o2] at a2
            exact b2 a2.symm
    · next out v next env hrun =>
      injection h with h
      subst h
      have henv := (hp.frame r _ hrun).2.1
      have back : ∀ r' g, ((s.put r s.next v).setRun r (some ⟨out, next, env ++ [s.next]⟩)).run r' = some g →
          (r' = r ∧ g = ⟨out, next, env ++ [s.next]⟩) ∨ (r' ≠ r ∧ s.run r' = some g) := by
        intro r' g hg
        simp only [State.setRun, State.put] at hg
        split at hg
        · next hr => injection hg with hg; exact Or.inl ⟨hr, hg.symm⟩
        · next hr => exact Or.inr ⟨hr, hg⟩
      refine ⟨?_, ?_, ?_, ?_, ?_, hi.outs, ?_⟩
      · intro r' p hst
        simp only [State.put, State.setRun] at hst ⊢
        split at hst
        · next hc => omega
        · exact Nat.lt_succ_of_lt (hi.lt r' p hst)
      · intro r1 f1 r2 f2 p h1 h2 hp1 hp2
        rcases back _ _ h1 with ⟨b1, rfl⟩ | ⟨b1, b1'⟩ <;> rcases back _ _ h2 with ⟨b2, rfl⟩ | ⟨b2, b2'⟩
        · rw [b1, b2]
        · have := (hp.frame r2 _ b2').2.1 p hp2
          simp only [List.mem_append, List.mem_singleton] at hp1
          rcases hp1 with hp1 | hp1
          · exact absurd (hi.envs r _ r2 f2 p hrun b2' hp1 hp2) (Ne.symm b2)
          · omega
        · have := (hp.frame r1 _ b1').2.1 p hp1
          simp only [List.mem_append, List.mem_singleton] at hp2
          rcases hp2 with hp2 | hp2
          · exact absurd (hi.envs r _ r1 f1 p hrun b1' hp2 hp1) (Ne.symm b1)
          · omega
        · exact hi.envs r1 f1 r2 f2 p b1' b2' hp1 hp2
      · intro r1 f1 p h1 hpe hh
        simp only [State.put, State.setRun] at hh ⊢
        rcases back _ _ h1 with ⟨b1, rfl⟩ | ⟨b1, b1'⟩
        · simp only [List.mem_append, List.mem_singleton] at hpe
          by_cases hpn : p = s.next
          · rw [if_pos ⟨b1, hpn⟩]; rfl
          · rw [if_neg hpn] at hh
            rw [if_neg (fun hc => hpn hc.2)]
            exact b1 ▸ hi.own r _ p hrun (hpe.resolve_right hpn) (hh.trans b1)
        · have := (hp.frame r1 _ b1').2.1 p hpe
          rw [if_neg (by omega)] at hh
          rw [if_neg (fun hc => b1 hc.1)]
          exact hi.own r1 f1 p b1' hpe hh
      · intro q t ht r1 f1 h1 ho p hpa
        have hto := (hp.inbox q t ht).2.1
        have hplt := (hp.inbox q t ht).2.2.1 p hpa
        simp only
        rw [if_neg (by omega)]
        rcases back _ _ h1 with ⟨b1, rfl⟩ | ⟨b1, b1'⟩
        · simp only [List.mem_append, List.mem_singleton] at ho
          obtain ⟨a1, a2⟩ := hi.args q t ht r _ hrun (ho.resolve_right (by omega)) p hpa
          exact ⟨List.mem_append_left _ a1, fun hh => put_keeps s r s.next v _ _ (a2 (hh.trans b1))⟩
        · obtain ⟨a1, a2⟩ := hi.args q t ht r1 f1 b1' ho p hpa
          exact ⟨a1, fun hh => put_keeps s r s.next v _ _ (a2 hh)⟩
      · intro q t ht
        have hto := (hp.inbox q t ht).2.1
        obtain ⟨a1, a2⟩ := hi.out q t ht
        refine ⟨fun r' => ?_, fun f1 h1 hq => ?_⟩
        · simp only [State.put, State.setRun]
          rw [if_neg (by omega)]
          exact a1 r'
        · rcases back _ _ h1 with ⟨b1, rfl⟩ | ⟨b1, b1'⟩
          · exact a2 ⟨out, .put v next, env⟩ (b1 ▸ hrun) hq
          · exact a2 f1 b1' hq
      · intro r1 f1 h1 hr1
        have old : ∀ g, s.run r1 = some g → g.out = f1.out →
            (∀ r', (s.put r s.next v).store r' f1.out = none) ∧
            (if f1.out = s.next then r else s.home f1.out) = r1 ∧ f1.out < s.next + 1 := by
          intro g hg hgo
          obtain ⟨a1, a2, a3⟩ := hi.runOut r1 g hg hr1
          rw [hgo] at a1 a2 a3
          refine ⟨fun r' => ?_, by rw [if_neg (by omega)]; exact a2, by omega⟩
          simp only [State.put]
          rw [if_neg (by omega)]
          exact a1 r'
        rcases back _ _ h1 with ⟨b1, rfl⟩ | ⟨b1, b1'⟩
        · exact old ⟨out, .put v next, env⟩ (b1 ▸ hrun) rfl
        · exact old _ b1' rfl
    · next out fn args next env hrun =>
      split at h
      · next hd =>
        split at h
        · cases h
        · next l hl =>
          injection h with h
          subst h
          have hpf := push_frame r dest l s
          have hrefs := sendArgs_refs hl
          have hkeep := push_keeps r dest l s
          have henv := (hp.frame r _ hrun).2.1
          have hnone : ∀ p, (∀ r', s.store r' p = none) → ∀ r', (s.push r dest l).store r' p = none := by
            intro p hn r'
            cases hs : (s.push r dest l).store r' p with
            | none => rfl
            | some v =>
              obtain ⟨q, hq⟩ := push_store r dest l s r' p v hs
              rw [hn q] at hq
              cases hq
          have back : ∀ r' g, (if r' = r then some ⟨out, next, env ++ [s.next]⟩ else (s.push r dest l).run r') = some g →
              (r' = r ∧ g = ⟨out, next, env ++ [s.next]⟩) ∨ (r' ≠ r ∧ s.run r' = some g) := by
            intro r' g hg
            split at hg
            · next hr => injection hg with hg; exact Or.inl ⟨hr, hg.symm⟩
            · next hr => rw [hpf.2.1] at hg; exact Or.inr ⟨hr, hg⟩
          have inb : ∀ q t, t ∈ (if q = dest then s.inbox dest ++ [⟨s.next, fn, l⟩] else (s.push r dest l).inbox q) →
              t ∈ s.inbox q ∨ (q = dest ∧ t = ⟨s.next, fn, l⟩) := by
            intro q t ht
            split at ht
            · next hq =>
              simp only [List.mem_append, List.mem_singleton] at ht
              rcases ht with ht | ht
              · exact Or.inl (hq ▸ ht)
              · exact Or.inr ⟨hq, ht⟩
            · rw [hpf.1] at ht
              exact Or.inl ht
          refine ⟨?_, ?_, ?_, ?_, ?_, ?_, ?_⟩
          · intro r' p hst
            simp only [State.setRun, State.setInbox] at hst ⊢
            obtain ⟨v, hv⟩ := Option.isSome_iff_exists.1 hst
            obtain ⟨q, hq⟩ := push_store r dest l s r' p v hv
            exact Nat.lt_succ_of_lt (hi.lt q p (by simp [hq]))
          · intro r1 f1 r2 f2 p h1 h2 hp1 hp2
            simp only [State.setRun, State.setInbox] at h1 h2
            rcases back _ _ h1 with ⟨b1, rfl⟩ | ⟨b1, b1'⟩ <;> rcases back _ _ h2 with ⟨b2, rfl⟩ | ⟨b2, b2'⟩
            · rw [b1, b2]
            · have := (hp.frame r2 _ b2').2.1 p hp2
              simp only [List.mem_append, List.mem_singleton] at hp1
              rcases hp1 with hp1 | hp1
              · exact absurd (hi.envs r _ r2 f2 p hrun b2' hp1 hp2) (Ne.symm b2)
              · omega
            · have := (hp.frame r1 _ b1').2.1 p hp1
              simp only [List.mem_append, List.mem_singleton] at hp2
              rcases hp2 with hp2 | hp2
              · exact absurd (hi.envs r _ r1 f1 p hrun b1' hp2 hp1) (Ne.symm b1)
              · omega
            · exact hi.envs r1 f1 r2 f2 p b1' b2' hp1 hp2
          · intro r1 f1 p h1 hpe hh
            simp only [State.setRun, State.setInbox] at h1 hh ⊢
            rcases back _ _ h1 with ⟨b1, rfl⟩ | ⟨b1, b1'⟩
            · simp only [List.mem_append, List.mem_singleton] at hpe
              by_cases hpn : p = s.next
              · rw [if_pos hpn] at hh
                exact absurd (hh.trans b1) hd.2
              · rw [if_neg hpn] at hh
                exact hkeep _ _ (b1 ▸ hi.own r _ p hrun (hpe.resolve_right hpn) (hh.trans b1))
            · have := (hp.frame r1 _ b1').2.1 p hpe
              rw [if_neg (by omega)] at hh
              exact hkeep _ _ (hi.own r1 f1 p b1' hpe hh)
          · intro q t ht r1 f1 h1 ho p hpa
            simp only [State.setRun, State.setInbox] at ht h1 ⊢
            rcases inb q t ht with ht | ⟨hq, rfl⟩
            · have hto := (hp.inbox q t ht).2.1
              have hplt := (hp.inbox q t ht).2.2.1 p hpa
              rw [if_neg (by omega)]
              rcases back _ _ h1 with ⟨b1, rfl⟩ | ⟨b1, b1'⟩
              · simp only [List.mem_append, List.mem_singleton] at ho
                obtain ⟨a1, a2⟩ := hi.args q t ht r _ hrun (ho.resolve_right (by omega)) p hpa
                exact ⟨List.mem_append_left _ a1, fun hh => hkeep _ _ (a2 (hh.trans b1))⟩
              · obtain ⟨a1, a2⟩ := hi.args q t ht r1 f1 b1' ho p hpa
                exact ⟨a1, fun hh => hkeep _ _ (a2 hh)⟩
            · simp only at ho hpa
              have hpe := hrefs p hpa
              have hplt := henv p hpe
              rw [if_neg (by omega)]
              rcases back _ _ h1 with ⟨b1, rfl⟩ | ⟨b1, b1'⟩
              · refine ⟨List.mem_append_left _ hpe, fun hh => ?_⟩
                rw [hq]
                exact push_gives r dest l s p hpa (hi.own r _ p hrun hpe (hh.trans b1))
              · have := (hp.frame r1 _ b1').2.1 _ ho
                omega
          · intro q t ht
            simp only [State.setRun, State.setInbox] at ht ⊢
            rcases inb q t ht with ht | ⟨hq, rfl⟩
            · obtain ⟨a1, a2⟩ := hi.out q t ht
              refine ⟨hnone _ a1, fun f1 h1 hq => ?_⟩
              rcases back _ _ h1 with ⟨b1, rfl⟩ | ⟨b1, b1'⟩
              · exact a2 ⟨out, .call fn args next, env⟩ (b1 ▸ hrun) hq
              · exact a2 f1 b1' hq
            · refine ⟨hnone _ fresh, fun f1 h1 hq0 => ?_⟩
              simp only
              rcases back _ _ h1 with ⟨b1, rfl⟩ | ⟨b1, b1'⟩
              · have := (hi.runOut r _ hrun (b1 ▸ hq0)).2.2
                simp only at this ⊢
                omega
              · have := (hi.runOut q f1 b1' hq0).2.2
                omega
          · intro q
            simp only [State.setRun, State.setInbox]
            split
            · rw [List.map_append, List.nodup_append]
              refine ⟨hi.outs dest, by simp, ?_⟩
              intro a ha b hb
              simp only [List.map_cons, List.map_nil, List.mem_singleton] at hb
              obtain ⟨t, ht, rfl⟩ := List.mem_map.1 ha
              have := (hp.inbox dest t ht).2.1
              omega
            · rw [hpf.1]
              exact hi.outs q
          · intro r1 f1 h1 hr1
            simp only [State.setRun, State.setInbox] at h1 ⊢
            have old : ∀ g, s.run r1 = some g → g.out = f1.out →
                (∀ r', (s.push r dest l).store r' f1.out = none) ∧
                (if f1.out = s.next then dest else s.home f1.out) = r1 ∧ f1.out < s.next + 1 := by
              intro g hg hgo
              obtain ⟨a1, a2, a3⟩ := hi.runOut r1 g hg hr1
              rw [hgo] at a1 a2 a3
              exact ⟨hnone _ a1, by rw [if_neg (by omega)]; exact a2, by omega⟩
            rcases back _ _ h1 with ⟨b1, rfl⟩ | ⟨b1, b1'⟩
            · exact old ⟨out, .call fn args next, env⟩ (b1 ▸ hrun) rfl
            · exact old _ b1' rfl
      · cases h
    · next out x next env hrun =>
      split at h
      · cases h
      · split at h
        · cases h
        · injection h with h
          subst h
          exact hi.goOn _ hrun
  | start r i =>
    simp only [State.step] at h
    split at h
    · cases h
    · next hc =>
      have hc1 : s.run r = none := by
        cases hr : s.run r with
        | none => rfl
        | some f => exact absurd (Or.inl (by simp [hr])) hc
      have hc2 : r ≠ 0 := fun hr => hc (Or.inr hr)
      split at h
      · cases h
      · next t ht =>
        split at h
        · cases h
        · next vs hvs =>
          injection h with h
          subst h
          have back : ∀ r' g, (if r' = r then some ⟨t.out, runTask (W.body t.fn) vs, []⟩ else s.run r') = some g →
              (r' = r ∧ g = ⟨t.out, runTask (W.body t.fn) vs, []⟩) ∨ (r' ≠ r ∧ s.run r' = some g) := by
            intro r' g hg
            split at hg
            · next hr => injection hg with hg; exact Or.inl ⟨hr, hg.symm⟩
            · next hr => exact Or.inr ⟨hr, hg⟩
          have htm := List.mem_of_getElem? ht
          have inb : ∀ q u, u ∈ (if q = r then (s.inbox r).eraseIdx i else s.inbox q) → u ∈ s.inbox q := by
            intro q u hu
            split at hu
            · next hq => exact hq ▸ List.mem_of_mem_eraseIdx hu
            · exact hu
          refine ⟨hi.lt, ?_, ?_, ?_, ?_, ?_, ?_⟩
          · intro r1 f1 r2 f2 p h1 h2 hp1 hp2
            simp only [State.setRun, State.setInbox] at h1 h2
            rcases back _ _ h1 with ⟨b1, rfl⟩ | ⟨b1, b1'⟩
            · cases hp1
            · rcases back _ _ h2 with ⟨b2, rfl⟩ | ⟨b2, b2'⟩
              · cases hp2
              · exact hi.envs r1 f1 r2 f2 p b1' b2' hp1 hp2
          · intro r1 f1 p h1 hpe hh
            simp only [State.setRun, State.setInbox] at h1 hh ⊢
            rcases back _ _ h1 with ⟨b1, rfl⟩ | ⟨b1, b1'⟩
            · cases hpe
            · exact hi.own r1 f1 p b1' hpe hh
          · intro q u hu r1 f1 h1 ho p hpa
            simp only [State.setRun, State.setInbox] at hu h1 ⊢
            rcases back _ _ h1 with ⟨b1, rfl⟩ | ⟨b1, b1'⟩
            · cases ho
            · exact hi.args q u (inb q u hu) r1 f1 b1' ho p hpa
          · intro q u hu
            simp only [State.setRun, State.setInbox] at hu ⊢
            obtain ⟨a1, a2⟩ := hi.out q u (inb q u hu)
            refine ⟨a1, fun f1 h1 hq => ?_⟩
            rcases back _ _ h1 with ⟨b1, rfl⟩ | ⟨b1, b1'⟩
            · rw [if_pos b1] at hu
              simp only
              intro hc
              obtain ⟨j, hji, hj⟩ := List.mem_eraseIdx_iff_getElem?.1 hu
              have hnd := hi.outs r
              have e1 : ((s.inbox r).map (·.out))[i]? = some t.out := by simp [ht]
              have e2 : ((s.inbox r).map (·.out))[j]? = some t.out := by simp [hj, hc]
              obtain ⟨l1, e1⟩ := List.getElem?_eq_some_iff.1 e1
              obtain ⟨l2, e2⟩ := List.getElem?_eq_some_iff.1 e2
              exact hji ((hnd.getElem_inj_iff.1 (e2.trans e1.symm)))
            · exact a2 f1 b1' hq
          · intro q
            simp only [State.setRun, State.setInbox]
            split
            · exact (hi.outs r).sublist ((List.eraseIdx_sublist _ _).map _)
            · exact hi.outs q
          · intro r1 f1 h1 hr1
            simp only [State.setRun, State.setInbox] at h1 ⊢
            rcases back _ _ h1 with ⟨b1, rfl⟩ | ⟨b1, b1'⟩
            · obtain ⟨c1, c2, _⟩ := hp.inbox r t htm
              exact ⟨(hi.out r t htm).1, b1 ▸ c1, c2⟩
            · exact hi.runOut r1 f1 b1' hr1
  | fetch r p =>
    simp only [State.step] at h
    split at h
    · cases h
    · split at h
      · cases h
      · next v hv =>
        injection h with h
        have hput := hi.put r p v (q := s.home p) (by simp [hv])
        rw [State.answer] at h
        split at h
        · next out x next env hrun =>
          split at h
          · subst h
            exact hput.goOn _ hrun
          · exact h ▸ hput
        · exact h ▸ hput

theorem own_run {W : World} {Q : Prog → Prop} (hQ : Closed Q) {s s' : State} (as : List Act) (h0 : 0 ∉ W.workers)
    (hb : ∀ fn ns, Scoped 0 (W.body fn ns) ∧ Q (W.body fn ns)) (hp : Place W Q s) (hi : Own s)
    (h : s.runAll W as = some s') : Place W Q s' ∧ Own s' := by
  induction as generalizing s with
  | nil => simp only [State.runAll, Option.some.injEq] at h; exact h ▸ ⟨hp, hi⟩
  | cons a as ih =>
    rw [State.runAll] at h
    split at h
    · next s1 h1 => exact ih (place_step hQ a hb h0 hp h1) (own_step a hp hi h1) h
    · cases h

end Verif.Nested
