import Verif.Lemmas.Nested
import Mathlib.Data.List.Perm.Subperm
import Mathlib.Data.List.Nodup

/-! A chain of nested calls that is longer than the number of workers never finishes. -/
namespace Verif.Nested
open Verif.Spec

/-- The rest of a program that ends with what `get` returns or raises. -/
def back : Got → Prog
  | .value v => .ret v
  | .raised e => .ret (.exc e)

theorem scoped_back (k : Nat) (g : Got) : Scoped k (back g) := by
  cases g <;> simp [back, Scoped]

/-- `def f(d): return 0 if d == 0 else get(f.remote(d - 1))`, with one function per depth. -/
def chainBody (d : Nat) (_ : List Nat) : Prog :=
  if d = 0 then .ret (.ok 0) else .call (d - 1) [] (.get 0 back)

/-- The main program `get(f.remote(n))`. -/
def chainWorld (workers : List Nat) (n : Nat) : World := ⟨chainBody, workers, .call n [] (.get 0 back)⟩

/-- What the state of a chain of depth `n` looks like. -/
structure Chain (W : World) (n : Nat) (s : State) : Prop where
  store : ∀ r p, s.store r p = none
  done : s.done = none
  le : s.next ≤ n + 1
  main : (s.next = 0 ∧ s.run 0 = some ⟨0, .call n [] (.get 0 back), []⟩) ∨
    (0 < s.next ∧ s.run 0 = some ⟨0, .get 0 back, [0]⟩)
  inbox : ∀ r t, t ∈ s.inbox r → t.fn = n - t.out ∧ t.out + 1 = s.next ∧ s.home t.out = r ∧ t.args = []
  single : ∀ r, (s.inbox r).length ≤ 1
  excl : ∀ r t, t ∈ s.inbox r → ∀ r' f, r' ≠ 0 → s.run r' = some f → f.out + 1 < s.next
  frame : ∀ r f, r ≠ 0 → s.run r = some f → f.out < s.next ∧ s.home f.out = r ∧
    ((f.out + 1 < s.next ∧ f.prog = .get 0 back ∧ f.env = [f.out + 1]) ∨
      (f.out + 1 = s.next ∧ f.out < n ∧ f.prog = .call (n - f.out - 1) [] (.get 0 back) ∧ f.env = []))
  busy : ∀ k, k + 1 < s.next → ∃ f, s.run (s.home k) = some f ∧ f.out = k
  homes : ∀ k, k < s.next → s.home k ∈ W.workers

theorem chain_init (ws : List Nat) (n : Nat) : Chain (chainWorld ws n) n (State.init (chainWorld ws n)) where
  store := by simp [State.init]
  done := rfl
  le := by simp [State.init]
  main := by left; simp [State.init, chainWorld]
  inbox := by simp [State.init]
  single := by simp [State.init]
  excl := by simp [State.init]
  frame := by
    intro r f hr h
    simp [State.init, hr] at h
  busy := by simp [State.init]
  homes := by simp [State.init]

/-- While the last request waits, the callers occupy as many workers as there are callers. -/
theorem chain_pigeon {ws : List Nat} {n : Nat} {s : State} (h0 : 0 ∉ ws) (hi : Chain (chainWorld ws n) n s) {r : Nat}
    (hr : r ∈ ws) (hrun : s.run r = none) : s.next - 1 < ws.length := by
  have hsub : (r :: (List.range (s.next - 1)).map s.home) ⊆ ws := by
    intro x hx
    rcases List.mem_cons.1 hx with hx | hx
    · exact hx ▸ hr
    · obtain ⟨k, hk, rfl⟩ := List.mem_map.1 hx
      exact hi.homes k (by have := List.mem_range.1 hk; omega)
  have hnd : (r :: (List.range (s.next - 1)).map s.home).Nodup := by
    rw [List.nodup_cons]
    constructor
    · intro hm
      obtain ⟨k, hk, rfl⟩ := List.mem_map.1 hm
      obtain ⟨f, hf, _⟩ := hi.busy k (by have := List.mem_range.1 hk; omega)
      rw [hrun] at hf
      cases hf
    · refine List.Nodup.map_on ?_ List.nodup_range
      intro a ha b hb hab
      obtain ⟨f, hf, hfo⟩ := hi.busy a (by have := List.mem_range.1 ha; omega)
      obtain ⟨g, hg, hgo⟩ := hi.busy b (by have := List.mem_range.1 hb; omega)
      rw [hab, hg] at hf
      injection hf with hf
      rw [← hfo, ← hgo, hf]
  have := (List.subperm_of_subset hnd hsub).length_le
  simp at this
  omega

theorem chain_step {ws : List Nat} {s s' : State} (a : Act) (h0 : 0 ∉ ws) {n : Nat} (hn : ws.length ≤ n)
    (hi : Chain (chainWorld ws n) n s) (h : s.step (chainWorld ws n) a = some s') : Chain (chainWorld ws n) n s' := by
  cases a with
  | exec r dest =>
    simp only [State.step, State.exec] at h
    split at h
    · cases h
    · next out v env hrun =>
      exfalso
      by_cases hr : r = 0
      · subst hr
        rcases hi.main with h1 | h1 <;> · rw [h1.2] at hrun; simp at hrun
      · rcases (hi.frame r _ hr hrun).2.2 with h1 | h1
        · simp at h1
        · simp at h1
    · next out v next env hrun =>
      exfalso
      by_cases hr : r = 0
      · subst hr
        rcases hi.main with h1 | h1 <;> · rw [h1.2] at hrun; simp at hrun
      · rcases (hi.frame r _ hr hrun).2.2 with h1 | h1
        · simp at h1
        · simp at h1
    · next out fn args next env hrun =>
      have hargs : args = [] ∧ next = .get 0 back ∧ env = [] ∧ fn = n - s.next ∧ s.next ≤ n ∧
          (∀ r t, t ∉ s.inbox r) ∧ (r = 0 → s.next = 0) ∧ (r ≠ 0 → s.next = out + 1) := by
        by_cases hr : r = 0
        · subst hr
          rcases hi.main with h1 | h1
          · rw [h1.2] at hrun
            injection hrun with hrun
            injection hrun with h2 h3 h4
            injection h3 with h5 h6 h7
            refine ⟨h6.symm, h7.symm, h4.symm, by omega, by omega, ?_, fun _ => h1.1, fun h => absurd rfl h⟩
            intro r t ht
            have := (hi.inbox r t ht).2.1
            omega
          · rw [h1.2] at hrun; simp at hrun
        · rcases hi.frame r _ hr hrun with ⟨h3, h4, h1 | h1⟩
          · simp at h1
          · simp only [Prog.call.injEq] at h1
            obtain ⟨h5, h6, ⟨h7, h8, h9⟩, h10⟩ := h1
            refine ⟨h8, h9, h10, by omega, by omega, ?_, fun h => absurd h hr, fun _ => h5.symm⟩
            intro r' t ht
            have := hi.excl r' t ht r _ hr hrun
            simp only at this
            omega
      obtain ⟨ha1, ha2, ha3, ha4, ha5, ha6, ha7, ha8⟩ := hargs
      subst ha1 ha2 ha3
      split at h
      · next hd =>
        split at h
        · cases h
        · next l hl =>
          simp only [sendArgs, Option.some.injEq] at hl
          subst hl
          injection h with h
          subst h
          have hin : s.inbox dest = [] := by
            cases hc : s.inbox dest with
            | nil => rfl
            | cons t _ => exact absurd (by rw [hc]; simp) (ha6 dest t)
          have hd0 : dest ≠ 0 := fun hc => h0 (hc ▸ hd.1)
          refine ⟨hi.store, hi.done, ?_, ?_, ?_, ?_, ?_, ?_, ?_, ?_⟩
          · simp only [State.setRun, State.setInbox]; omega
          · right
            simp only [State.setRun, State.setInbox, State.push]
            refine ⟨by omega, ?_⟩
            by_cases hr : r = 0
            · subst hr
              rw [if_pos rfl]
              have h00 := ha7 rfl
              rcases hi.main with h1 | h1
              · rw [h1.2] at hrun
                injection hrun with hrun
                injection hrun with h2 h3 h4
                rw [← h2, h00]
                rfl
              · omega
            · rw [if_neg (Ne.symm hr)]
              rcases hi.main with h1 | h1
              · have := ha8 hr; omega
              · exact h1.2
          · intro r' t ht
            simp only [State.setRun, State.setInbox, State.push] at ht ⊢
            split at ht
            · next hr =>
              simp only [hin, List.nil_append, List.mem_singleton] at ht
              subst ht
              exact ⟨ha4, rfl, by simp [hr], rfl⟩
            · exact absurd ht (ha6 r' t)
          · intro r'
            simp only [State.setRun, State.setInbox, State.push]
            split
            · simp [hin]
            · exact hi.single r'
          · intro r' t ht r'' f hr'' hf
            simp only [State.setRun, State.setInbox, State.push] at hf ⊢
            split at hf
            · next hr =>
              injection hf with hf
              subst hf
              have := ha8 (hr ▸ hr'')
              simp only
              omega
            · have := (hi.frame r'' f hr'' hf).1
              omega
          · intro r' f hr' hf
            simp only [State.setRun, State.setInbox, State.push] at hf ⊢
            split at hf
            · next hr =>
              injection hf with hf
              subst hf
              obtain ⟨h1, h2, _⟩ := hi.frame r _ (hr ▸ hr') hrun
              have h3 := ha8 (hr ▸ hr')
              simp only at h1 h2
              refine ⟨by simp only; omega, by simp only; rw [if_neg (by omega), h2, hr], Or.inl ⟨by simp only; omega, rfl, ?_⟩⟩
              simp [h3]
            · next hr =>
              obtain ⟨h1, h2, h3⟩ := hi.frame r' f hr' hf
              refine ⟨by omega, by rw [if_neg (by omega), h2], ?_⟩
              rcases h3 with h3 | h3
              · exact Or.inl ⟨by omega, h3.2⟩
              · exfalso
                by_cases hr0 : r = 0
                · have := ha7 hr0; omega
                · have h4 := ha8 hr0
                  have h5 := hi.frame r _ hr0 hrun
                  simp only at h5
                  have : f.out = out := by omega
                  rw [this] at h2
                  exact hr (h2.symm.trans h5.2.1)
          · intro k hk
            simp only [State.setRun, State.setInbox, State.push] at hk ⊢
            have hk' : k ≠ s.next := by omega
            rw [if_neg hk']
            by_cases hkn : k + 1 < s.next
            · obtain ⟨f, hf, hfk⟩ := hi.busy k hkn
              by_cases hr : s.home k = r
              · rw [if_pos hr]
                rw [hr, hrun] at hf
                injection hf with hf
                exact ⟨_, rfl, by rw [← hfk, ← hf]⟩
              · rw [if_neg hr]
                exact ⟨f, hf, hfk⟩
            · have hr0 : r ≠ 0 := fun hc => by have := ha7 hc; omega
              have h3 := ha8 hr0
              have h5 := hi.frame r _ hr0 hrun
              simp only at h5
              have hko : k = out := by omega
              rw [hko, if_pos h5.2.1]
              exact ⟨_, rfl, rfl⟩
          · intro k hk
            simp only [State.setRun, State.setInbox, State.push] at hk ⊢
            split
            · exact hd.1
            · exact hi.homes k (by omega)
      · cases h
    · next out x next env hrun =>
      split at h
      · cases h
      · next p hp => rw [hi.store] at h; cases h
  | start r i =>
    simp only [State.step] at h
    split at h
    · cases h
    · next hc =>
      have hc1 : s.run r = none := by
        cases hr : s.run r with
        | none => rfl
        | some f => exact absurd (Or.inl (by simp [hr])) hc
      have hc2 : r ≠ 0 := fun hr => hc (Or.inr hr)
      split at h
      · cases h
      · next t ht =>
        have htm := List.mem_of_getElem? ht
        obtain ⟨h1, h2, h3, h4⟩ := hi.inbox r t htm
        rw [h4] at h
        simp only [values, runTask] at h
        injection h with h
        subst h
        have hrw : r ∈ ws := h3 ▸ hi.homes t.out (by omega)
        have hp := chain_pigeon h0 hi hrw hc1
        have hbody : chainBody t.fn [] = .call (n - t.out - 1) [] (.get 0 back) := by
          rw [chainBody, if_neg (by omega), h1]
        have hb2 : (chainWorld ws n).body t.fn [] = .call (n - t.out - 1) [] (.get 0 back) := hbody
        have hone : s.inbox r = [t] ∧ i = 0 := by
          have hl := hi.single r
          cases hin : s.inbox r with
          | nil => rw [hin] at htm; cases htm
          | cons u us =>
            rw [hin] at hl
            cases us with
            | nil =>
              rw [hin] at ht htm
              cases i with
              | zero => simp at ht; simp [ht]
              | succ i => simp at ht
            | cons _ _ => simp at hl
        have hempty : ∀ r' u, u ∉ (if r' = r then (s.inbox r).eraseIdx i else s.inbox r') := by
          intro r' u hu
          split at hu
          · rw [hone.1, hone.2] at hu; cases hu
          · next hr =>
            obtain ⟨_, g2, g3, _⟩ := hi.inbox r' u hu
            have go : u.out = t.out := by omega
            rw [go, h3] at g3
            exact hr g3.symm
        refine ⟨hi.store, hi.done, hi.le, ?_, ?_, ?_, ?_, ?_, ?_, hi.homes⟩
        · simp only [State.setRun, State.setInbox, if_neg (Ne.symm hc2)]
          exact hi.main
        · intro r' u hu
          simp only [State.setRun, State.setInbox] at hu
          exact absurd hu (hempty r' u)
        · intro r'
          simp only [State.setRun, State.setInbox]
          split
          · rw [hone.1, hone.2]; simp
          · exact hi.single r'
        · intro r' u hu
          simp only [State.setRun, State.setInbox] at hu
          exact absurd hu (hempty r' u)
        · intro r' f hr' hf
          simp only [State.setRun, State.setInbox] at hf ⊢
          split at hf
          · next hr =>
            injection hf with hf
            subst hf
            exact ⟨by simp only; omega, by rw [hr]; exact h3, Or.inr ⟨h2, by simp only; omega, hb2, rfl⟩⟩
          · exact hi.frame r' f hr' hf
        · intro k hk
          simp only [State.setRun, State.setInbox] at hk ⊢
          obtain ⟨f, hf, hfk⟩ := hi.busy k hk
          rw [if_neg]
          · exact ⟨f, hf, hfk⟩
          · intro hr
            rw [hr, hc1] at hf
            cases hf
  | fetch r p =>
    simp only [State.step] at h
    split at h
    · cases h
    · rw [hi.store] at h; cases h

theorem chain_run {ws : List Nat} {s s' : State} (as : List Act) (h0 : 0 ∉ ws) {n : Nat} (hn : ws.length ≤ n)
    (hi : Chain (chainWorld ws n) n s) (h : s.runAll (chainWorld ws n) as = some s') : Chain (chainWorld ws n) n s' := by
  induction as generalizing s with
  | nil => simp only [State.runAll, Option.some.injEq] at h; exact h ▸ hi
  | cons a as ih =>
    rw [State.runAll] at h
    split at h
    · next s1 h1 => exact ih (chain_step a h0 hn hi h1) h
    · cases h

/-- Evaluated directly, the chain returns 0. -/
theorem chain_value (again : Bool) (d : Nat) : ∃ m, force chainBody again m (.call d []) = some (.ok 0) := by
  induction d with
  | zero => exact ⟨2, rfl⟩
  | succ d ih =>
    obtain ⟨m, hm⟩ := ih
    refine ⟨m + 5, ?_⟩
    rw [force]
    simp only [forceAll, chainBody, Nat.add_one_ne_zero, if_false, Nat.add_sub_cancel, evalProg, thunkArgs,
      List.nil_append, List.getElem?_cons_zero, force_mono (by omega : m ≤ m + 2) hm, failedOne, List.findSome?_nil,
      outcome, back]

end Verif.Nested
