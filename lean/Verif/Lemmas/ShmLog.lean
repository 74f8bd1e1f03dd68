import Verif.Lemmas.ShmManager

/-! Event logs of a host. -/
namespace Verif.Shm
open Verif.FreeMemory Verif.Spec

/-- Reservations in force after a log. -/
def afterLog : (DataId → Option Resv) → List Event → (DataId → Option Resv)
  | cur, [] => cur
  | cur, .reserved id r _ :: t => afterLog (fun x => if x = id then some r else cur x) t
  | cur, .freed id :: t => afterLog (fun x => if x = id then none else cur x) t

theorem legal_append (a b : List Event) : ∀ cur, LegalLog cur a → LegalLog (afterLog cur a) b →
    LegalLog cur (a ++ b) := by
  induction a with
  | nil => intro cur _ h; exact h
  | cons e t ih =>
    intro cur h1 h2
    cases e with
    | reserved id r f => exact ⟨h1.1, ih _ h1.2 h2⟩
    | freed id => exact ih _ h1 h2

theorem afterLog_freed (L : List DataId) : ∀ cur x,
    afterLog cur (L.map .freed) x = if x ∈ L then none else cur x := by
  induction L with
  | nil => intro cur x; simp [afterLog]
  | cons a t ih =>
    intro cur x
    simp only [List.map_cons, afterLog, ih, List.mem_cons]
    by_cases h1 : x ∈ t <;> by_cases h2 : x = a <;> simp [h1, h2]

theorem legal_freed (L : List DataId) : ∀ cur, LegalLog cur (L.map .freed) := by
  induction L with
  | nil => intro cur; trivial
  | cons a t ih => intro cur; exact ih _

theorem put_ok_resv {m m' : Mgr} {id : DataId} {n : Nat} {r : Resv} (h : m.put id n = (.ok r, m')) :
    m'.resv = upd m.resv id (some r) := by
  unfold Mgr.put at h
  simp only at h
  split at h
  · simp at h
  · split at h
    · simp at h
    · simp only [Prod.mk.injEq, Except.ok.injEq] at h
      obtain ⟨rfl, rfl⟩ := h
      rfl

theorem step_log {h h' : Host} {op : HostOp} {ev : List Event} (hs : h.step op = some (h', ev)) :
    LegalLog h.mgr.resv ev ∧ afterLog h.mgr.resv ev = h'.mgr.resv := by
  cases op with
  | reserve id n =>
    simp only [Host.step] at hs
    split at hs
    · rename_i r f m heq
      simp only [Option.some.injEq, Prod.mk.injEq] at hs
      obtain ⟨rfl, rfl⟩ := hs
      unfold Mgr.reserve at heq
      split at heq
      · rename_i r0 hg
        simp only [Prod.mk.injEq, Except.ok.injEq] at heq
        obtain ⟨⟨rfl, rfl⟩, rfl⟩ := heq
        unfold Mgr.get at hg
        refine ⟨⟨by simp [hg], trivial⟩, ?_⟩
        funext x
        simp only [afterLog]
        split
        · rename_i e; rw [e, hg]
        · rfl
      · rename_i hg
        unfold Mgr.get at hg
        split at heq
        · rename_i r1 m1 e1
          simp only [Prod.mk.injEq, Except.ok.injEq] at heq
          obtain ⟨⟨rfl, rfl⟩, rfl⟩ := heq
          refine ⟨⟨by simp [hg], trivial⟩, ?_⟩
          rw [put_ok_resv e1]
          funext x
          simp only [afterLog, upd_apply]
        · simp at heq
    · simp at hs
  | clear l refs =>
    simp only [Host.step] at hs
    split at hs
    · rename_i h1 hc
      simp only [Option.some.injEq, Prod.mk.injEq] at hs
      obtain ⟨rfl, rfl⟩ := hs
      refine ⟨legal_freed _ _, ?_⟩
      funext x
      rw [afterLog_freed, clear_resv hc x]
      by_cases hz : (x, 0) ∈ (h.mgr.pending ++ l).zip refs
      · have hm : x ∈ h.cleanupList l := (List.of_mem_zip hz).1
        simp only [hz, if_true, List.mem_filter, hm, true_and, clear_resv hc x]
        cases h.mgr.resv x <;> simp
      · rw [if_neg hz, if_neg]
        simp only [List.mem_filter, clear_resv hc x, hz, if_false]
        cases h.mgr.resv x <;> simp
    · simp at hs
  | poke i v =>
    simp only [Host.step, Option.some.injEq, Prod.mk.injEq] at hs
    obtain ⟨rfl, rfl⟩ := hs
    exact ⟨trivial, rfl⟩

theorem run_log (ops : List HostOp) : ∀ {h h' : Host} {ev : List Event},
    h.run ops = some (h', ev) → LegalLog h.mgr.resv ev := by
  induction ops with
  | nil => intro h h' ev hr; simp [Host.run] at hr; rw [hr.2]; trivial
  | cons op ops ih =>
    intro h h' ev hr
    simp only [Host.run] at hr
    split at hr
    · simp at hr
    · rename_i h1 ev1 e1
      split at hr
      · simp at hr
      · rename_i h2 ev2 e2
        simp only [Option.some.injEq, Prod.mk.injEq] at hr
        obtain ⟨rfl, rfl⟩ := hr
        obtain ⟨s1, s2⟩ := step_log e1
        exact legal_append _ _ _ s1 (s2 ▸ ih e2)

end Verif.Shm
