import Verif.Lemmas.SharedSystemRun

/-! Memory outside the reservations that are being filled does not change. -/
namespace Verif.SharedSystem
open Verif.Shm Verif.SharedBuffer Verif.Spec

/-- The node has become the other one, and only bytes of reservations in progress have changed. -/
def Frame (n n' : Node) : Prop := ∀ j, (∀ p ∈ n.pend, j < p.resv.first ∨ p.resv.last ≤ j) → n'.mem j = n.mem j

theorem frame_request {n n' : Node} {p : Nat} {id : DataId} {len : Nat} {job : Job} (h : n.request p id len job = some n') : Frame n n' := by
  unfold Node.request at h
  split at h
  · simp only [Option.some.injEq] at h; subst h; intro j _; rfl
  · simp at h

theorem frame_write {n n' : Node} {id : DataId} (h : n.write id = some n') : Frame n n' := by
  unfold Node.write at h
  split at h
  · rename_i r d hf
    split at h
    · rename_i x m hw
      simp only [Option.some.injEq] at h; subst h
      intro j hj
      have := hj _ (find_mem hf).1
      have h2 := (write_spec n.mem r d).1 j this
      rw [hw] at h2
      exact h2
    · simp at h
  · simp only [Option.some.injEq] at h; subst h; intro j _; rfl

theorem frame_sync {n n' o : Node} {id : DataId} (h : n.sync o id = some n') : Frame n n' := by
  unfold Node.sync at h
  split at h
  · rename_i r hf
    split at h
    · simp at h
    · rename_i ro hro
      split at h
      · simp only [Option.some.injEq] at h; subst h
        intro j hj
        have h1 := hj _ (find_mem hf).1
        simp only at h1
        apply writeAt_outside
        simp only [List.length_take]
        omega
      · simp only [Option.some.injEq] at h; subst h; intro j _; rfl
  · simp only [Option.some.injEq] at h; subst h; intro j _; rfl

theorem frame_publish (n : Node) (id : DataId) : Frame n (n.publish id) := by
  unfold Node.publish; split <;> exact fun _ _ => rfl

/-- One operation changes on every host only bytes of reservations in progress. -/
theorem frame_step {s s' : Sys} {op : Op} {k : Nat} {n : Node} (hk : s.nodes[k]? = some n) (h : s.step op = some s') :
    (∃ n', s'.nodes[k]? = some n' ∧ Frame n n') ∧ ∀ id d, s.objs id = some d → s'.objs id = some d := by
  have key : ∀ {i : Nat} {f : Node → Option Node} {s1 : Sys}, s.onNode i f = some s1 → (∀ m m', f m = some m' → Frame m m') →
      (∃ n', s1.nodes[k]? = some n' ∧ Frame n n') ∧ s1.objs = s.objs := by
    intro i f s1 h1 hf
    rcases onNode_cases h1 with rfl | ⟨m, m', hm, hfm, rfl⟩
    · exact ⟨⟨n, hk, fun _ _ => rfl⟩, rfl⟩
    · refine ⟨?_, rfl⟩
      by_cases e : i = k
      · subst e
        rw [hk] at hm
        simp only [Option.some.injEq] at hm
        subst hm
        refine ⟨m', ?_, hf _ _ hfm⟩
        have := (List.getElem?_eq_some_iff.1 hk).1
        simp [this]
      · refine ⟨n, ?_, fun _ _ => rfl⟩
        simp only
        rw [List.getElem?_set_ne e]
        exact hk
  have same : s' = s → (∃ n', s'.nodes[k]? = some n' ∧ Frame n n') ∧ ∀ id d, s.objs id = some d → s'.objs id = some d := by
    rintro rfl; exact ⟨⟨n, hk, fun _ _ => rfl⟩, fun _ _ e => e⟩
  have fin : ((∃ n', s'.nodes[k]? = some n' ∧ Frame n n') ∧ s'.objs = s.objs) →
      (∃ n', s'.nodes[k]? = some n' ∧ Frame n n') ∧ ∀ id d, s.objs id = some d → s'.objs id = some d := by
    rintro ⟨a, b⟩; exact ⟨a, fun id d e => by rw [b]; exact e⟩
  cases op with
  | cleanup l =>
    simp only [Sys.step] at h
    rw [Option.map_eq_some_iff] at h
    obtain ⟨hs, hc, rfl⟩ := h
    have hl := clearAll_length hc
    rw [List.length_map] at hl
    obtain ⟨hlt, rfl⟩ := List.getElem?_eq_some_iff.1 hk
    refine ⟨⟨{ s.nodes[k] with host := hs[k]'(by omega) }, ?_, fun _ _ => rfl⟩, fun _ _ e => e⟩
    simp only [List.getElem?_zipWith]
    rw [List.getElem?_eq_getElem hlt, List.getElem?_eq_getElem (by omega)]
  | put i p id d =>
    simp only [Sys.step] at h
    split at h
    · rename_i hc
      rw [Option.map_eq_some_iff] at h
      obtain ⟨s1, h1, rfl⟩ := h
      obtain ⟨a, b⟩ := key h1 (fun _ _ e => frame_request e)
      refine ⟨a, ?_⟩
      intro x e hx
      simp only [b]
      rw [upd_other]
      · exact hx
      · rintro rfl; rw [hc.1] at hx; simp at hx
    · simp only [Option.some.injEq] at h; exact same h.symm
  | write i id => exact fin (key h (fun _ _ e => frame_write e))
  | ask i p id q =>
    simp only [Sys.step] at h
    split at h
    · simp only [Option.some.injEq] at h; exact same h.symm
    · refine fin (key h (fun m m' e => ?_))
      split at e
      · simp only [Option.some.injEq] at e; subst e; exact fun _ _ => rfl
      · exact frame_request e
  | sync i id o =>
    simp only [Sys.step] at h
    split at h
    · simp only [Option.some.injEq] at h; exact same h.symm
    · exact fin (key h (fun _ _ e => frame_sync e))
  | publish i id => exact fin (key h (fun m m' e => by simp only [Option.some.injEq] at e; subst e; exact frame_publish m id))
  | check i p id q =>
    exact fin (key h (fun m m' e => by simp only [Option.some.injEq] at e; subst e; unfold Node.check; split <;> exact fun _ _ => rfl))
  | incr i p id q =>
    exact fin (key h (fun m m' e => by simp only [Option.some.injEq] at e; subst e; unfold Node.incr; split <;> exact fun _ _ => rfl))
  | read i p id q =>
    simp only [Sys.step] at h
    split at h
    · simp only [Option.some.injEq] at h; exact same h.symm
    · exact fin (key h (fun m m' e => by simp only [Option.some.injEq] at e; subst e; unfold Node.read; split <;> exact fun _ _ => rfl))
  | finalize i p id q =>
    exact fin (key h (fun m m' e => by simp only [Option.some.injEq] at e; subst e; unfold Node.finalize; split <;> exact fun _ _ => rfl))
  | forget i v => exact fin (key h (fun m m' e => by simp only [Option.some.injEq] at e; subst e; exact fun _ _ => rfl))

/-- A byte that lies in no reservation in progress during a history is the same at its end. -/
theorem frame_run (ops : List Op) : ∀ {s s' : Sys} {k j : Nat} {n : Node}, s.nodes[k]? = some n → s.run ops = some s' →
    (∀ first u m, first <+: ops → s.run first = some u → u.nodes[k]? = some m → ∀ p ∈ m.pend, j < p.resv.first ∨ p.resv.last ≤ j) →
    (∃ n', s'.nodes[k]? = some n' ∧ n'.mem j = n.mem j) ∧ ∀ id d, s.objs id = some d → s'.objs id = some d := by
  induction ops with
  | nil =>
    intro s s' k j n hk h _
    simp only [Sys.run, Option.some.injEq] at h
    subst h
    exact ⟨⟨n, hk, rfl⟩, fun _ _ e => e⟩
  | cons op t ih =>
    intro s s' k j n hk h hp
    simp only [Sys.run] at h
    rw [Option.bind_eq_some_iff] at h
    obtain ⟨s1, h1, h2⟩ := h
    obtain ⟨⟨n1, hk1, f1⟩, ho⟩ := frame_step hk h1
    obtain ⟨⟨n', hk', e⟩, ho'⟩ := ih hk1 h2 (fun first u m hf hr => hp (op :: first) u m (by simpa using hf) (by
      simp only [Sys.run]; rw [h1]; exact hr))
    refine ⟨⟨n', hk', ?_⟩, fun id d x => ho' id d (ho id d x)⟩
    rw [e]
    exact f1 j (hp [] s n (by simp) rfl hk)

/-- Objects that have been put stay known. -/
theorem objs_run (ops : List Op) : ∀ {s s' : Sys}, s.run ops = some s' → ∀ id d, s.objs id = some d → s'.objs id = some d := by
  induction ops with
  | nil =>
    intro s s' h id d e
    simp only [Sys.run, Option.some.injEq] at h
    subst h
    exact e
  | cons op t ih =>
    intro s s' h id d e
    simp only [Sys.run] at h
    rw [Option.bind_eq_some_iff] at h
    obtain ⟨s1, h1, h2⟩ := h
    refine ih h2 id d ?_
    cases op with
    | put i p x y =>
      simp only [Sys.step] at h1
      split at h1
      · rename_i hc
        rw [Option.map_eq_some_iff] at h1
        obtain ⟨s2, h3, rfl⟩ := h1
        simp only
        rw [upd_other]
        · rcases onNode_cases h3 with rfl | ⟨m, m', -, -, rfl⟩ <;> exact e
        · rintro rfl; rw [hc.1] at e; simp at e
      · simp only [Option.some.injEq] at h1; rw [← h1]; exact e
    | cleanup l =>
      simp only [Sys.step] at h1
      rw [Option.map_eq_some_iff] at h1
      obtain ⟨hs, -, rfl⟩ := h1
      exact e
    | ask i p x q | sync i x o | read i p x q =>
      simp only [Sys.step] at h1
      split at h1
      · simp only [Option.some.injEq] at h1; rw [← h1]; exact e
      · rcases onNode_cases h1 with rfl | ⟨m, m', -, -, rfl⟩ <;> exact e
    | write i x | publish i x | check i p x q | incr i p x q | finalize i p x q | forget i v =>
      rcases onNode_cases h1 with rfl | ⟨m, m', -, -, rfl⟩ <;> exact e

end Verif.SharedSystem
