import Verif.Lemmas.ClusterRoot
import Mathlib.Data.List.Nodup

/-! Where the values of a program come from. -/
namespace Verif.Spec
open Verif.Worker (Val Ret World Le)
open Verif.Cluster (Act)

/-- The references a call creates. -/
def created : Call → List Nat
  | .put id _ => [id]
  | .submit _ _ outs => outs

/-- The references created by a list of calls. -/
def createdAll : List Call → List Nat
  | [] => []
  | c :: cs => created c ++ createdAll cs

theorem createdAll_append : ∀ a b : List Call, createdAll (a ++ b) = createdAll a ++ createdAll b
  | [], b => rfl
  | c :: a, b => by simp [createdAll, createdAll_append a b]

theorem mem_createdAll {c : Call} : ∀ {cs : List Call}, c ∈ cs → ∀ i ∈ created c, i ∈ createdAll cs
  | d :: cs, h, i, hi => by
    simp only [createdAll, List.mem_append]
    rcases List.mem_cons.1 h with rfl | h
    · exact Or.inl hi
    · exact Or.inr (mem_createdAll h i hi)

/-- References are created at most once. -/
theorem created_unique : ∀ {cs : List Call}, (createdAll cs).Nodup → ∀ {c d : Call}, c ∈ cs → d ∈ cs →
    ∀ i ∈ created c, i ∈ created d → c = d
  | e :: cs, h, c, d, hc, hd, i, hi, hj => by
    simp only [createdAll, List.nodup_append] at h
    obtain ⟨-, h2, h3⟩ := h
    rcases List.mem_cons.1 hc with hc1 | hc1 <;> rcases List.mem_cons.1 hd with hd1 | hd1
    · rw [hc1, hd1]
    · subst hc1
      exact absurd rfl (h3 i hi i (mem_createdAll hd1 i hj))
    · subst hd1
      exact absurd rfl (h3 i hj i (mem_createdAll hc1 i hi))
    · exact created_unique h2 hc1 hd1 i hi hj

theorem callsOf_created : ∀ (acts : List Act) (n : Nat), (createdAll (callsOf n acts)).Nodup ∧
    ∀ i ∈ createdAll (callsOf n acts), n ≤ i
  | [], n => by simp [callsOf, createdAll]
  | a :: as, n => by
    obtain ⟨h1, h2⟩ := callsOf_created as (nextOf n a)
    simp only [callsOf, createdAll_append]
    have hc : (createdAll (callOf n a)).Nodup ∧ ∀ i ∈ createdAll (callOf n a), n ≤ i ∧ i < nextOf n a := by
      cases a with
      | put v => simp [callOf, createdAll, created, nextOf]
      | submit fn args k d =>
        simp only [callOf, createdAll, created, List.append_nil, nextOf]
        constructor
        · exact List.Nodup.map (fun a b h => by simpa using h) List.nodup_range
        · intro i hi
          simp only [List.mem_map, List.mem_range] at hi
          obtain ⟨j, hj, rfl⟩ := hi
          omega
      | _ => simp [callOf, createdAll]
    have hle : n ≤ nextOf n a := by cases a <;> simp [nextOf]
    constructor
    · rw [List.nodup_append]
      refine ⟨hc.1, h1, ?_⟩
      rintro x hx y hy rfl
      have := (hc.2 x hx).2
      have := h2 x hy
      omega
    · intro i hi
      rw [List.mem_append] at hi
      rcases hi with hi | hi
      · exact (hc.2 i hi).1
      · exact Nat.le_trans hle (h2 i hi)

theorem evalCall_other (W : World) (env : Nat → Option Val) (c : Call) (i : Nat) (h : i ∉ created c) :
    evalCall W env c i = env i := by
  cases c with
  | put id v =>
    simp only [evalCall]
    apply Verif.Worker.extend_other
    simp only [List.mem_singleton]
    rintro p rfl hp
    exact h (by simp [created, ← hp])
  | submit fn args outs =>
    simp only [evalCall]
    cases hr : taskResult W env fn args with
    | some r =>
      apply Verif.Worker.extend_other
      intro p hp hpi
      apply h
      simp only [created]
      rw [← hpi]
      exact (Verif.Worker.outputValues_fst outs r).subset (List.mem_map_of_mem hp)
    | none => rfl

theorem eval_other (W : World) : ∀ (cs : List Call) (env : Nat → Option Val) (i : Nat), i ∉ createdAll cs →
    cs.foldl (evalCall W) env i = env i
  | [], env, i, _ => rfl
  | c :: cs, env, i, h => by
    simp only [createdAll, List.mem_append, not_or] at h
    rw [List.foldl_cons, eval_other W cs _ i h.2, evalCall_other W env c i h.1]

/-- A value comes from a `put` or from the result of a task. -/
theorem eval_origin (W : World) : ∀ (cs : List Call) (env : Nat → Option Val) (i : Nat) (v : Val),
    cs.foldl (evalCall W) env i = some v → env i = some v ∨ Call.put i v ∈ cs ∨
      ∃ pre fn args outs post r, cs = pre ++ Call.submit fn args outs :: post ∧
        taskResult W (pre.foldl (evalCall W) env) fn args = some r ∧ (i, v) ∈ outputValues outs r
  | [], env, i, v, h => Or.inl h
  | c :: cs, env, i, v, h => by
    rw [List.foldl_cons] at h
    rcases eval_origin W cs _ i v h with h | h | ⟨pre, fn, args, outs, post, r, h1, h2, h3⟩
    · cases c with
      | put id u =>
        simp only [evalCall] at h
        rcases Verif.Worker.extend_cases _ _ _ _ h with h | h
        · exact Or.inl h
        · simp only [List.mem_singleton, Prod.mk.injEq] at h
          obtain ⟨rfl, rfl⟩ := h
          exact Or.inr (Or.inl (by simp))
      | submit fn args outs =>
        simp only [evalCall] at h
        cases hr : taskResult W env fn args with
        | some r =>
          rw [hr] at h
          rcases Verif.Worker.extend_cases _ _ _ _ h with h | h
          · exact Or.inl h
          · exact Or.inr (Or.inr ⟨[], fn, args, outs, cs, r, rfl, hr, h⟩)
        | none =>
          rw [hr] at h
          exact Or.inl h
    · exact Or.inr (Or.inl (List.mem_cons_of_mem _ h))
    · exact Or.inr (Or.inr ⟨c :: pre, fn, args, outs, post, r, by rw [h1]; rfl, h2, h3⟩)

theorem meaning_mono (W : World) {pre post : List Call} (hn : (createdAll (pre ++ post)).Nodup) :
    Le (meaning W pre) (meaning W (pre ++ post)) := by
  intro i v h
  have hi : i ∈ createdAll pre := by
    rcases eval_origin W pre _ i v h with h | h | ⟨p, fn, args, outs, q, r, h1, -, h3⟩
    · simp at h
    · exact mem_createdAll h i (by simp [created])
    · subst h1
      refine mem_createdAll (c := .submit fn args outs) (by simp) i ?_
      exact (Verif.Worker.outputValues_fst outs r).subset (List.mem_map_of_mem (f := Prod.fst) h3)
  rw [createdAll_append, List.nodup_append] at hn
  rw [meaning, List.foldl_append, eval_other W post]
  · exact h
  · intro hc
    exact hn.2.2 i hi i hc rfl

theorem taskResult_mono (W : World) {f g : Nat → Option Val} (h : Le f g) {fn : Nat} {args : List Val} {r : Ret}
    (hr : taskResult W f fn args = some r) : taskResult W g fn args = some r := by
  rw [← hr]
  have hall : (∀ i ∈ Verif.Spec.refsList args, (f i).isSome) ∧ (f fn).isSome := by
    simp only [taskResult] at hr
    split at hr
    · assumption
    · simp at hr
  have hg : ∀ i, (f i).isSome → g i = f i := by
    intro i hi
    obtain ⟨v, hv⟩ := Option.isSome_iff_exists.1 hi
    rw [hv]; exact h i v hv
  apply Verif.Worker.taskResult_congr
  · intro i hi
    exact hg i (hall.1 i hi)
  · exact hg fn hall.2

/-- The value of an output of a task in terms of the result of the task. -/
theorem meaning_output (W : World) {calls : List Call} (hn : (createdAll calls).Nodup) {fn : Nat} {args : List Val}
    {outs : List Nat} (hc : Call.submit fn args outs ∈ calls) {i : Nat} (hi : i ∈ outs) {v : Val}
    (hv : meaning W calls i = some v) :
    ∃ r, taskResult W (meaning W calls) fn args = some r ∧ (i, v) ∈ outputValues outs r := by
  rcases eval_origin W calls _ i v hv with h | h | ⟨p, fn', args', outs', q, r, h1, h2, h3⟩
  · simp at h
  · have := created_unique hn hc h i hi (by simp [created])
    simp at this
  · have hi' : i ∈ outs' := (Verif.Worker.outputValues_fst outs' r).subset (List.mem_map_of_mem (f := Prod.fst) h3)
    have := created_unique hn hc (d := .submit fn' args' outs') (by rw [h1]; simp) i hi hi'
    simp only [Call.submit.injEq] at this
    obtain ⟨rfl, rfl, rfl⟩ := this
    refine ⟨r, ?_, h3⟩
    subst h1
    exact taskResult_mono W (meaning_mono W hn) h2

end Verif.Spec
