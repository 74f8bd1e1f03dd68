import Verif.Model.Wait
import Mathlib.Data.List.Perm.Subperm

namespace Verif.Wait
open Verif.Worker (Ret outputs)

/-- The effect of processing the wait request: no reply and everything completed is moved, or one reply. -/
def Outcome (m : Monitor) (p : Monitor × List (List Nat × List Nat)) : Prop :=
  (p.2 = [] ∧ p.1.completed = m.completed ∧ p.1.num = m.num ∧ (p.1.ready ++ p.1.awaited).Perm (m.ready ++ m.awaited) ∧
    (∀ x ∈ p.1.awaited, x ∉ m.completed) ∧ (∀ x ∈ p.1.ready, x ∈ m.ready ∨ x ∈ m.completed) ∧
    m.ready.length ≤ p.1.ready.length ∧ ∀ k : Nat, m.ready.length < k → k ≤ p.1.ready.length → (k : Int) ≠ m.num) ∨
  ∃ r a, p.2 = [(r, a)] ∧ (r.length : Int) = m.num ∧ (r ++ a).Perm (m.ready ++ m.awaited) ∧
    (∀ x ∈ r, x ∈ m.ready ∨ x ∈ m.completed) ∧ p.1 = { m with ready := [], awaited := [] }

theorem outcome_same {m : Monitor} (h : ∀ x ∈ m.awaited, x ∉ m.completed) : Outcome m (m, []) :=
  Or.inl ⟨rfl, rfl, rfl, List.Perm.refl _, h, fun _ hx => Or.inl hx, Nat.le_refl _,
    fun k h1 h2 => absurd h2 (Nat.not_le.2 h1)⟩

/-- What the loop of the monitor does. -/
theorem loop_spec : ∀ (f i : Nat) (m : Monitor), m.awaited.length ≤ f + i → (∀ x ∈ m.awaited.take i, x ∉ m.completed) →
    Outcome m (Monitor.loop f i m)
  | 0, i, m, hl, hc => by
    refine outcome_same fun x hx => ?_
    exact hc x (by rw [List.take_of_length_le (by omega)]; exact hx)
  | f + 1, i, m, hl, hc => by
    simp only [Monitor.loop]
    cases hi : m.awaited[i]? with
    | none =>
      refine outcome_same fun x hx => ?_
      exact hc x (by rw [List.take_of_length_le (List.getElem?_eq_none_iff.1 hi)]; exact hx)
    | some id =>
      have hmem : id ∈ m.awaited := List.mem_of_getElem? hi
      have hp : (m.ready ++ [id] ++ m.awaited.erase id).Perm (m.ready ++ m.awaited) := by
        rw [List.append_assoc]
        exact List.Perm.append_left _ (List.perm_cons_erase hmem).symm
      simp only
      by_cases hd : id ∈ m.completed
      · rw [if_pos hd]
        by_cases hn : ((m.ready ++ [id]).length : Int) = m.num
        · rw [if_pos hn]
          have hend : Monitor.loop f i { m with ready := [], awaited := [] } = ({ m with ready := [], awaited := [] }, []) := by
            cases f <;> simp [Monitor.loop]
          right
          refine ⟨_, _, by rw [hend], hn, hp, ?_, by rw [hend]⟩
          intro x hx
          rw [List.mem_append, List.mem_singleton] at hx
          rcases hx with hx | rfl
          · exact Or.inl hx
          · exact Or.inr hd
        · rw [if_neg hn]
          have hlen := List.length_erase_of_mem hmem
          have hpos := List.length_pos_of_mem hmem
          have htake : ∀ x ∈ (m.awaited.erase id).take i, x ∉ m.completed := by
            have hnot : id ∉ m.awaited.take i := fun h => hc id h hd
            intro x hx
            have : (m.awaited.erase id).take i = m.awaited.take i := by
              have hs : m.awaited = m.awaited.take i ++ m.awaited.drop i := (List.take_append_drop i _).symm
              have hil : i < m.awaited.length := (List.getElem?_eq_some_iff.1 hi).1
              conv => lhs; rw [hs]
              rw [List.erase_append_right _ hnot, List.take_append_of_le_length (by simp; omega)]
              rw [List.take_of_length_le (by simp; omega)]
            rw [this] at hx
            exact hc x hx
          have ih := loop_spec f i { m with ready := m.ready ++ [id], awaited := m.awaited.erase id }
            (by simp only; omega) htake
          rcases ih with ⟨a1, a2, a3, a4, a5, a6, a7, a8⟩ | ⟨r, a, b1, b2, b3, b4, b5⟩
          · left
            refine ⟨a1, a2, a3, a4.trans hp, a5, ?_, ?_, ?_⟩
            · intro x hx
              rcases a6 x hx with h | h
              · rw [List.mem_append, List.mem_singleton] at h
                rcases h with h | rfl
                · exact Or.inl h
                · exact Or.inr hd
              · exact Or.inr h
            · simp only [List.length_append, List.length_singleton] at a7; omega
            · intro k h1 h2
              simp only [List.length_append, List.length_singleton] at a8 hn
              by_cases hk : k = m.ready.length + 1
              · rw [hk]; exact hn
              · exact a8 k (by omega) h2
          · right
            refine ⟨r, a, b1, b2, b3.trans hp, ?_, b5⟩
            intro x hx
            rcases b4 x hx with h | h
            · rw [List.mem_append, List.mem_singleton] at h
              rcases h with h | rfl
              · exact Or.inl h
              · exact Or.inr hd
            · exact Or.inr h
      · rw [if_neg hd]
        refine loop_spec f (i + 1) m (by omega) ?_
        intro x hx
        rw [List.take_add_one, List.mem_append] at hx
        rcases hx with hx | hx
        · exact hc x hx
        · rw [hi] at hx
          simp only [Option.toList_some, List.mem_singleton] at hx
          subst hx
          exact hd

/-- What `process_wait_requests` does. -/
theorem process_spec (m : Monitor) : Outcome m m.process := by
  simp only [Monitor.process]
  split
  · rename_i he
    exact outcome_same (by simp [he])
  · exact loop_spec _ _ _ (by omega) (by simp)

/-- What the loop of the main process does. -/
theorem localLoop_spec (has : Nat → Bool) (num : Int) : ∀ (l ready nr : List Nat), l.Subperm nr →
    (∀ x ∈ ready, has x = true) →
    let r := localLoop has num l ready nr
    (r.2.1 ++ r.2.2).Perm (ready ++ nr) ∧ (∀ x ∈ r.2.1, has x = true) ∧ ready.length ≤ r.2.1.length ∧
    (r.1 = true → (r.2.1.length : Int) = num) ∧
    (r.1 = false → ∀ k : Nat, ready.length < k → k ≤ r.2.1.length → (k : Int) ≠ num) ∧
    (r.1 = false → r.2.1.length = ready.length + (l.filter fun x => has x).length)
  | [], ready, nr, _, hr => by
    simp only [localLoop]
    exact ⟨List.Perm.refl _, hr, Nat.le_refl _, by simp, fun _ k h1 h2 => by omega, by simp⟩
  | id :: rest, ready, nr, hs, hr => by
    simp only [localLoop]
    by_cases hi : has id = true
    · rw [if_pos hi]
      have hmem : id ∈ nr := hs.subset (by simp)
      have hp : (ready ++ [id] ++ nr.erase id).Perm (ready ++ nr) := by
        rw [List.append_assoc]
        exact List.Perm.append_left _ (List.perm_cons_erase hmem).symm
      have hr' : ∀ x ∈ ready ++ [id], has x = true := by
        intro x hx
        rw [List.mem_append, List.mem_singleton] at hx
        rcases hx with hx | rfl
        · exact hr x hx
        · exact hi
      by_cases hn : ((ready ++ [id]).length : Int) = num
      · rw [if_pos hn]
        exact ⟨hp, hr', by simp, fun _ => hn, by simp, by simp⟩
      · rw [if_neg hn]
        have hs' : rest.Subperm (nr.erase id) := by
          have := hs.erase id
          rwa [List.erase_cons_head] at this
        obtain ⟨a1, a2, a3, a4, a5, a6⟩ := localLoop_spec has num rest (ready ++ [id]) (nr.erase id) hs' hr'
        simp only [List.length_append, List.length_singleton] at a3 a5 a6 hn
        refine ⟨a1.trans hp, a2, by omega, a4, ?_, ?_⟩
        · intro hf k h1 h2
          by_cases hk : k = ready.length + 1
          · rw [hk]; exact hn
          · exact a5 hf k (by omega) h2
        · intro hf
          have := a6 hf
          rw [List.filter_cons, if_pos hi]
          simp only [List.length_cons]
          omega
    · rw [if_neg hi]
      have hs' : rest.Subperm nr := (List.sublist_cons_self id rest).subperm.trans hs
      obtain ⟨a1, a2, a3, a4, a5, a6⟩ := localLoop_spec has num rest ready nr hs' hr
      refine ⟨a1, a2, a3, a4, a5, ?_⟩
      intro hf
      rw [List.filter_cons, if_neg hi]
      exact a6 hf

/-- The reports of all finished tasks. -/
def reported (acts : List Act) : List (Option Nat) :=
  acts.flatMap fun a => match a with
    | .finish outs r => match outputs outs r with
      | .ok (_, c) => c
      | .error _ => []
    | _ => []

/-- Data stored by the main process. -/
def stored (acts : List Act) : List Nat :=
  acts.filterMap fun a => match a with
    | .store i => some i
    | _ => none

/-- A result is right. -/
def ResultOK (acts : List Act) (ids : List Nat) (num : Int) (ready notReady : List Nat) : Prop :=
  (ready ++ notReady).Perm ids ∧ (ready.length : Int) = num ∧ ∀ x ∈ ready, x ∈ stored acts ∨ some x ∈ reported acts

theorem ResultOK.mono {acts : List Act} {ids : List Nat} {num : Int} {ready notReady : List Nat}
    (h : ResultOK acts ids num ready notReady) (a : Act) : ResultOK (acts ++ [a]) ids num ready notReady := by
  refine ⟨h.1, h.2.1, fun x hx => ?_⟩
  rcases h.2.2 x hx with h | h
  · exact Or.inl (by simp only [stored, List.filterMap_append, List.mem_append] at h ⊢; exact Or.inl h)
  · exact Or.inr (by simp only [reported, List.flatMap_append, List.mem_append] at h ⊢; exact Or.inl h)

/-- The invariant of all histories. -/
structure Inv (acts : List Act) (s : State) : Prop where
  has : ∀ x, s.has x = true ↔ x ∈ stored acts
  comp : ∀ x, x ∈ s.monitor.completed ∨ (∃ r ∈ s.reports, some x ∈ r) ↔ some x ∈ reported acts
  idle : s.call = none → s.request = none ∧ s.replies = [] ∧ s.monitor.ready = [] ∧ s.monitor.awaited = []
  call : ∀ c, s.call = some c → (∀ x ∈ c.ready, x ∈ stored acts) ∧
    (∀ x ∈ c.notReady, s.has x = false) ∧
    (∀ x ∈ c.ids, x ∈ c.ready ∨ x ∈ c.notReady) ∧ (∀ k : Nat, 0 < k → k ≤ c.ready.length → (k : Int) ≠ c.num) ∧
    (c.ready ++ c.notReady).Perm c.ids ∧
    ((s.request = some (c.notReady, c.num - c.ready.length) ∧ s.replies = [] ∧ s.monitor.ready = [] ∧ s.monitor.awaited = []) ∨
     (s.request = none ∧ s.replies = [] ∧ s.monitor.num = c.num - c.ready.length ∧
      (s.monitor.ready ++ s.monitor.awaited).Perm c.notReady ∧ (∀ x ∈ s.monitor.awaited, x ∉ s.monitor.completed) ∧
      (∀ x ∈ s.monitor.ready, some x ∈ reported acts) ∧
      ∀ k : Nat, 0 < k → k ≤ s.monitor.ready.length → (k : Int) ≠ s.monitor.num) ∨
     (s.request = none ∧ ∃ r a, s.replies = [(r, a)] ∧ (r.length : Int) = c.num - c.ready.length ∧
      (r ++ a).Perm c.notReady ∧ (∀ x ∈ r, some x ∈ reported acts) ∧ s.monitor.ready = [] ∧ s.monitor.awaited = []))
  results : ∀ ids num ready notReady, (ids, num, ready, notReady) ∈ s.results → ResultOK acts ids num ready notReady

theorem inv_init : Inv [] State.init := by
  constructor <;> simp [State.init, stored, reported, Monitor.init]

theorem stored_append (acts : List Act) (a : Act) : stored (acts ++ [a]) = stored acts ++ stored [a] := by
  simp [stored, List.filterMap_append]

theorem reported_append (acts : List Act) (a : Act) : reported (acts ++ [a]) = reported acts ++ reported [a] := by
  simp [reported, List.flatMap_append]

theorem inv_step {acts : List Act} {s s' : State} {a : Act} (h : Inv acts s) (hs : s.step a = some s') :
    Inv (acts ++ [a]) s' := by
  have hmono : ∀ x, x ∈ stored acts → x ∈ stored (acts ++ [a]) := by
    intro x hx; rw [stored_append]; exact List.mem_append_left _ hx
  have rmono : ∀ x, x ∈ reported acts → x ∈ reported (acts ++ [a]) := by
    intro x hx; rw [reported_append]; exact List.mem_append_left _ hx
  have hres : ∀ ids num ready notReady, (ids, num, ready, notReady) ∈ s.results → ResultOK (acts ++ [a]) ids num ready notReady :=
    fun ids num ready notReady hr => (h.results ids num ready notReady hr).mono a
  cases a with
  | store id =>
    simp only [State.step] at hs
    split at hs
    · simp at hs
    rename_i hcall
    have hcall : s.call = none := by simpa using hcall
    simp only [Option.some.injEq] at hs
    subst hs
    have e : reported (acts ++ [.store id]) = reported acts := by rw [reported_append]; simp [reported]
    constructor
    case has =>
      intro x
      rw [stored_append]
      simp only [Bool.or_eq_true, decide_eq_true_eq, h.has x, List.mem_append]
      simp only [stored, List.filterMap_cons, List.filterMap_nil, List.mem_singleton]
      exact or_comm
    case comp => intro x; rw [e]; exact h.comp x
    case idle => exact h.idle
    case call => intro c hc; simp only at hc; rw [hcall] at hc; simp at hc
    case results => exact hres
  | finish outs r =>
    simp only [State.step] at hs
    cases ho : outputs outs r with
    | error e => rw [ho] at hs; simp at hs
    | ok p =>
      obtain ⟨l, c⟩ := p
      rw [ho] at hs
      simp only [Option.some.injEq] at hs
      subst hs
      have e1 : stored (acts ++ [.finish outs r]) = stored acts := by rw [stored_append]; simp [stored]
      have e2 : reported (acts ++ [.finish outs r]) = reported acts ++ c := by
        rw [reported_append]; simp [reported, ho]
      constructor
      case has => intro x; rw [e1]; exact h.has x
      case comp =>
        intro x
        rw [e2, List.mem_append, ← h.comp x]
        simp only [List.mem_append, List.mem_singleton]
        constructor
        · rintro (h1 | ⟨q, h1 | rfl, h2⟩)
          · exact Or.inl (Or.inl h1)
          · exact Or.inl (Or.inr ⟨q, h1, h2⟩)
          · exact Or.inr h2
        · rintro ((h1 | ⟨q, h1, h2⟩) | h2)
          · exact Or.inl h1
          · exact Or.inr ⟨q, Or.inl h1, h2⟩
          · exact Or.inr ⟨c, Or.inr rfl, h2⟩
      case idle => exact h.idle
      case call =>
        intro k hk
        obtain ⟨a1, a0, a2, a3, a4, a5⟩ := h.call k hk
        refine ⟨fun x hx => hmono x (a1 x hx), a0, a2, a3, a4, ?_⟩
        rcases a5 with a5 | ⟨b1, b2, b3, b4, b5, b6, b7⟩ | ⟨b1, r, a, b2, b3, b4, b5, b6, b7⟩
        · exact Or.inl a5
        · exact Or.inr (Or.inl ⟨b1, b2, b3, b4, b5, fun x hx => rmono _ (b6 x hx), b7⟩)
        · exact Or.inr (Or.inr ⟨b1, r, a, b2, b3, b4, fun x hx => rmono _ (b5 x hx), b6, b7⟩)
      case results => exact hres
  | report k =>
    simp only [State.step] at hs
    cases hk : s.reports[k]? with
    | none => rw [hk] at hs; simp at hs
    | some ids =>
      rw [hk] at hs
      simp only [Option.some.injEq] at hs
      subst hs
      have e1 : stored (acts ++ [.report k]) = stored acts := by rw [stored_append]; simp [stored]
      have e2 : reported (acts ++ [.report k]) = reported acts := by rw [reported_append]; simp [reported]
      have hmemr : ids ∈ s.reports := List.mem_of_getElem? hk
      have hids : ∀ x, some x ∈ ids → some x ∈ reported acts := fun x hx => (h.comp x).1 (Or.inr ⟨ids, hmemr, hx⟩)
      have hsplit : ∀ q, q ∈ s.reports ↔ q = ids ∨ q ∈ s.reports.eraseIdx k := by
        intro q
        have hkl := (List.getElem?_eq_some_iff.1 hk).1
        have hkv := (List.getElem?_eq_some_iff.1 hk).2
        have := (List.getElem_cons_eraseIdx_perm hkl).mem_iff (a := q)
        rw [← this, hkv, List.mem_cons]
      have hcomp0 : ∀ x, x ∈ ids.filterMap id ++ s.monitor.completed ∨ (∃ r ∈ s.reports.eraseIdx k, some x ∈ r) ↔
          some x ∈ reported acts := by
        intro x
        rw [← h.comp x]
        simp only [List.mem_append, List.mem_filterMap, id, exists_eq_right]
        constructor
        · rintro ((h1 | h1) | ⟨q, h1, h2⟩)
          · exact Or.inr ⟨ids, hmemr, h1⟩
          · exact Or.inl h1
          · exact Or.inr ⟨q, (hsplit q).2 (Or.inr h1), h2⟩
        · rintro (h1 | ⟨q, h1, h2⟩)
          · exact Or.inl (Or.inr h1)
          · rcases (hsplit q).1 h1 with rfl | h1
            · exact Or.inl (Or.inl h2)
            · exact Or.inr ⟨q, h1, h2⟩
      have hcr : ∀ x, x ∈ ids.filterMap id ++ s.monitor.completed → some x ∈ reported acts :=
        fun x hx => (hcomp0 x).1 (Or.inl hx)
      have hps := process_spec { s.monitor with completed := ids.filterMap id ++ s.monitor.completed }
      simp only [Monitor.taskDone]
      have hcompeq : ({ s.monitor with completed := ids.filterMap id ++ s.monitor.completed } : Monitor).process.1.completed =
          ids.filterMap id ++ s.monitor.completed := by
        rcases hps with ⟨-, hh, -⟩ | ⟨r, a, -, -, -, -, hh⟩
        · exact hh
        · rw [hh]
      have hnil : s.monitor.awaited = [] → ({ s.monitor with completed := ids.filterMap id ++ s.monitor.completed } : Monitor).process =
          ({ s.monitor with completed := ids.filterMap id ++ s.monitor.completed }, []) := by
        intro hn; simp only [Monitor.process]; rw [if_pos hn]
      constructor
      case has => intro x; rw [e1]; exact h.has x
      case comp => intro x; simp only; rw [e2, hcompeq]; exact hcomp0 x
      case idle =>
        intro hc
        obtain ⟨b1, b2, b3, b4⟩ := h.idle hc
        simp only
        rw [hnil b4]
        exact ⟨b1, by simp [b2], b3, b4⟩
      case call =>
        intro c hc
        obtain ⟨a1, a0, a2, a3, a4, a5⟩ := h.call c hc
        simp only
        rw [e1, e2]
        refine ⟨a1, a0, a2, a3, a4, ?_⟩
        rcases a5 with ⟨b1, b2, b3, b4⟩ | ⟨b1, b2, b3, b4, b5, b6, b7⟩ | ⟨b1, r, a, b2, b3, b4, b5, b6, b7⟩
        · left
          rw [hnil b4]
          exact ⟨b1, by simp [b2], b3, b4⟩
        · right
          rcases hps with ⟨c1, c2, c3, c4, c5, c6, c7, c8⟩ | ⟨r, a, c1, c2, c3, c4, c5⟩
          · left
            simp only at c3 c4 c5 c6 c7 c8
            refine ⟨b1, by rw [c1]; simp [b2], by rw [c3]; exact b3, c4.trans b4, by rw [c2]; exact c5, ?_, ?_⟩
            · intro x hx
              rcases c6 x hx with hx | hx
              · exact b6 x hx
              · exact hcr x hx
            · rw [c3]
              intro k h1 h2
              by_cases hkl : k ≤ s.monitor.ready.length
              · exact b7 k h1 hkl
              · exact c8 k (by omega) h2
          · right
            simp only at c2 c3 c4 c5
            refine ⟨b1, r, a, by rw [c1]; simp [b2], by rw [c2]; exact b3, c3.trans b4, ?_, by rw [c5], by rw [c5]⟩
            intro x hx
            rcases c4 x hx with hx | hx
            · exact b6 x hx
            · exact hcr x hx
        · right; right
          rw [hnil b7]
          exact ⟨b1, r, a, by simp [b2], b3, b4, b5, b6, b7⟩
      case results => exact hres
  | wait ids num =>
    simp only [State.step] at hs
    split at hs
    · simp at hs
    · rename_i hcall
      have hcall : s.call = none := by simpa using hcall
      have e1 : stored (acts ++ [.wait ids num]) = stored acts := by rw [stored_append]; simp [stored]
      have e2 : reported (acts ++ [.wait ids num]) = reported acts := by rw [reported_append]; simp [reported]
      obtain ⟨i1, i2, i3, i4⟩ := h.idle hcall
      have hl := localLoop_spec s.has num ids [] ids (List.Subperm.refl _) (by simp)
      split at hs
      · rename_i ready notReady he
        rw [he] at hl
        simp only [List.nil_append] at hl
        simp only [Option.some.injEq] at hs
        subst hs
        constructor
        case has => intro x; rw [e1]; exact h.has x
        case comp => intro x; rw [e2]; exact h.comp x
        case idle => intro _; exact ⟨i1, i2, i3, i4⟩
        case call => intro c hc; simp only at hc; rw [hcall] at hc; simp at hc
        case results =>
          intro ids' num' ready' notReady' hm
          simp only [List.mem_append, List.mem_singleton, Prod.mk.injEq] at hm
          rcases hm with hm | ⟨rfl, rfl, rfl, rfl⟩
          · exact hres _ _ _ _ hm
          · refine ⟨hl.1, hl.2.2.2.1 trivial, fun x hx => Or.inl ?_⟩
            rw [e1]
            exact (h.has x).1 (hl.2.1 x hx)
      · rename_i ready notReady he
        rw [he] at hl
        simp only [List.nil_append, List.length_nil] at hl
        obtain ⟨l1, l2, -, -, l5, l6⟩ := hl
        simp only [Option.some.injEq] at hs
        subst hs
        constructor
        case has => intro x; rw [e1]; exact h.has x
        case comp => intro x; rw [e2]; exact h.comp x
        case idle => intro hc; simp at hc
        case call =>
          intro c hc
          simp only [Option.some.injEq] at hc
          subst hc
          simp only
          rw [e1, e2]
          refine ⟨fun x hx => (h.has x).1 (l2 x hx), ?_, ?_, l5 trivial, l1, Or.inl ⟨trivial, i2, i3, i4⟩⟩
          · have h6 := l6 trivial
            have hp := l1.filter (fun x => s.has x)
            rw [List.filter_append, List.filter_eq_self.2 l2] at hp
            have := hp.length_eq
            rw [List.length_append] at this
            have hz : (notReady.filter fun x => s.has x) = [] := List.length_eq_zero_iff.1 (by omega)
            intro x hx
            simpa using List.filter_eq_nil_iff.1 hz x hx
          · intro x hx
            have := (l1.mem_iff (a := x)).2 hx
            rwa [List.mem_append] at this
        case results => exact hres
  | request =>
    simp only [State.step] at hs
    cases hr : s.request with
    | none => rw [hr] at hs; simp at hs
    | some q =>
      obtain ⟨ids, num⟩ := q
      rw [hr] at hs
      simp only [Option.some.injEq] at hs
      subst hs
      have e1 : stored (acts ++ [.request]) = stored acts := by rw [stored_append]; simp [stored]
      have e2 : reported (acts ++ [.request]) = reported acts := by rw [reported_append]; simp [reported]
      have hps := process_spec { s.monitor with awaited := ids, num := num }
      simp only [Monitor.waitRequest]
      have hcompeq : ({ s.monitor with awaited := ids, num := num } : Monitor).process.1.completed = s.monitor.completed := by
        rcases hps with ⟨-, hh, -⟩ | ⟨r, a, -, -, -, -, hh⟩
        · exact hh
        · rw [hh]
      have hcr : ∀ x, x ∈ s.monitor.completed → some x ∈ reported acts := fun x hx => (h.comp x).1 (Or.inl hx)
      constructor
      case has => intro x; rw [e1]; exact h.has x
      case comp => intro x; simp only; rw [e2, hcompeq]; exact h.comp x
      case idle =>
        intro hc
        have := (h.idle hc).1
        rw [hr] at this; simp at this
      case call =>
        intro c hc
        obtain ⟨a1, a0, a2, a3, a4, a5⟩ := h.call c hc
        simp only
        rw [e1, e2]
        refine ⟨a1, a0, a2, a3, a4, ?_⟩
        rcases a5 with ⟨b1, b2, b3, b4⟩ | ⟨b1, -⟩ | ⟨b1, -⟩
        · rw [hr, Option.some.injEq, Prod.mk.injEq] at b1
          obtain ⟨rfl, rfl⟩ := b1
          right
          rcases hps with ⟨c1, c2, c3, c4, c5, c6, c7, c8⟩ | ⟨r, a, c1, c2, c3, c4, c5⟩
          · left
            simp only [b3, List.nil_append, List.length_nil, List.not_mem_nil, false_or] at c1 c2 c3 c4 c5 c6 c8 ⊢
            rw [c1, c2, c3]
            refine ⟨trivial, by simp [b2], rfl, c4, c5, fun x hx => hcr x (c6 x hx), c8⟩
          · right
            simp only [b3, List.nil_append, List.not_mem_nil, false_or] at c1 c2 c3 c4 c5 ⊢
            rw [c1, c5]
            exact ⟨trivial, r, a, by simp [b2], c2, c3, fun x hx => hcr x (c4 x hx), rfl, rfl⟩
        · rw [hr] at b1; simp at b1
        · rw [hr] at b1; simp at b1
      case results => exact hres
  | reply =>
    simp only [State.step] at hs
    split at hs
    · rename_i c ready notReady t hcall hrep
      simp only [Option.some.injEq] at hs
      subst hs
      have e1 : stored (acts ++ [.reply]) = stored acts := by rw [stored_append]; simp [stored]
      have e2 : reported (acts ++ [.reply]) = reported acts := by rw [reported_append]; simp [reported]
      obtain ⟨a1, a0, a2, a3, a4, a5⟩ := h.call c hcall
      rcases a5 with ⟨b1, b2, b3, b4⟩ | ⟨b1, b2, -⟩ | ⟨b1, r, a, b2, b3, b4, b5, b6, b7⟩
      · rw [b2] at hrep; simp at hrep
      · rw [b2] at hrep; simp at hrep
      · rw [b2] at hrep
        simp only [List.cons.injEq, Prod.mk.injEq] at hrep
        obtain ⟨⟨rfl, rfl⟩, rfl⟩ := hrep
        constructor
        case has => intro x; rw [e1]; exact h.has x
        case comp => intro x; rw [e2]; exact h.comp x
        case idle => intro _; exact ⟨b1, rfl, b6, b7⟩
        case call => intro c' hc'; simp at hc'
        case results =>
          intro ids' num' ready' notReady' hm
          simp only [List.mem_append, List.mem_singleton, Prod.mk.injEq] at hm
          rcases hm with hm | ⟨rfl, rfl, rfl, rfl⟩
          · exact hres _ _ _ _ hm
          · refine ⟨?_, ?_, ?_⟩
            · rw [List.append_assoc]
              exact (List.Perm.append_left _ b4).trans a4
            · simp only [List.length_append]; push_cast; omega
            · intro x hx
              rw [List.mem_append] at hx
              rcases hx with hx | hx
              · exact Or.inl (by rw [e1]; exact a1 x hx)
              · exact Or.inr (by rw [e2]; exact b5 x hx)
    · simp at hs

theorem inv_run : ∀ (acts pre : List Act) {s s' : State}, Inv pre s → s.run acts = some s' → Inv (pre ++ acts) s'
  | [], pre, s, s', h, hr => by
    simp only [State.run, Option.some.injEq] at hr
    subst hr
    simpa using h
  | a :: as, pre, s, s', h, hr => by
    simp only [State.run] at hr
    split at hr
    · rename_i s1 hs
      have := inv_run as (pre ++ [a]) (inv_step h hs) hr
      simpa using this
    · simp at hr

end Verif.Wait
