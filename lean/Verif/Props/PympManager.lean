import Verif.Lemmas.PympManager

/-! Property C27: the worker pool of the multiprocessing backend. -/
namespace Verif.Props
open Verif.PympPool

/-- C27: in every history with `n` workers, a task or a new actor goes only to an existing worker that no live actor
occupies, and an operation is refused only if all `n` workers are occupied by live actors. -/
theorem C27_only_free_workers (n : Nat) (ops : List Op) (live : List Nat) (o : Op) (e : Effect)
    (h : (live, o, e) ∈ ((State.init n).run ops).1) :
    (∀ w, e = .task w ∨ e = .actor w → w < n ∧ w ∉ live) ∧ (e = .refused → ∀ w < n, w ∈ live) := by
  obtain ⟨s, hs, rfl, rfl⟩ := run_mem ops (inv_init n) live o e h
  have hn : s.pool.nextId < s.pool.grabbed.length ∨ s.pool.grabbed.length = 0 := by rw [hs.len]; exact hs.nextLt
  obtain ⟨h1, h2, h3, h4⟩ := submit_spec s.pool hn
  have hfree : ∀ i, s.pool.grabbed[i]? = some false → i < n ∧ i ∉ s.actors := by
    intro i hi
    refine ⟨by rw [← hs.len]; exact (List.getElem?_eq_some_iff.1 hi).1, fun hc => ?_⟩
    have := (hs.flag i).2 hc
    rw [hi] at this
    simp at this
  cases o with
  | submit =>
    simp only [State.step]
    split <;> rename_i hsub <;> rw [hsub] at h3 h4
    · refine ⟨?_, by simp⟩
      intro w hw
      simp only [Effect.task.injEq, reduceCtorEq, or_false] at hw
      exact hfree w (h3 w (by simp [hw]))
    · refine ⟨by simp, fun _ w hw => ?_⟩
      exact (hs.flag w).1 (h4 rfl w (by rw [hs.len]; exact hw))
  | create =>
    simp only [State.step, Pool.grab]
    cases hf : firstFree s.pool.grabbed with
    | some i =>
      refine ⟨?_, by simp⟩
      intro w hw
      simp only [reduceCtorEq, Effect.actor.injEq, false_or] at hw
      exact hw ▸ hfree i (firstFree_some hf)
    | none =>
      refine ⟨by simp, fun _ w hw => ?_⟩
      exact (hs.flag w).1 (firstFree_none hf w (by rw [hs.len]; exact hw))
  | drop k =>
    simp only [State.step]
    split <;> simp

/-- C27: the live actors always have different workers, and a worker without live actor accepts work again: submitting
then succeeds. -/
theorem C27_actors_exclusive_and_released (n : Nat) (ops : List Op) :
    ((State.init n).run ops).2.actors.Nodup ∧
    ∀ w < n, w ∉ ((State.init n).run ops).2.actors → (((State.init n).run ops).2.step .submit).1 ≠ .refused := by
  have h := run_inv ops (inv_init n)
  refine ⟨h.nodup, ?_⟩
  intro w hw hfree hr
  have hn : ((State.init n).run ops).2.pool.nextId < ((State.init n).run ops).2.pool.grabbed.length ∨
      ((State.init n).run ops).2.pool.grabbed.length = 0 := by rw [h.len]; exact h.nextLt
  obtain ⟨h1, h2, h3, h4⟩ := submit_spec _ hn
  simp only [State.step] at hr
  split at hr
  · simp at hr
  · rename_i hsub
    rw [hsub] at h4
    exact hfree ((h.flag w).1 (h4 rfl w (by rw [h.len]; exact hw)))

example : ((State.init 3).run [.create, .submit, .submit, .create, .submit, .drop 0, .submit, .create, .create, .submit]).1.map
    (·.2.2) = [.actor 0, .task 1, .task 2, .actor 1, .task 2, .none, .task 0, .actor 0, .actor 2, .refused] := by decide

end Verif.Props
