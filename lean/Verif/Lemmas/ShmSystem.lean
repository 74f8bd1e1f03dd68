import Verif.Lemmas.ShmManager

/-! Systems of hosts and collective cleanup rounds. -/
namespace Verif.Shm
open Verif.FreeMemory Verif.Spec

/-- Largest contribution of any host for an id. -/
def gmax (hs : List Host) (id : DataId) : Nat := (hs.map (·.hasRef id)).foldr max 0

theorem gmax_cons (h : Host) (t : List Host) (id : DataId) :
    gmax (h :: t) id = max (h.hasRef id) (gmax t id) := rfl

theorem gmax_zero {hs : List Host} {id : DataId} : gmax hs id = 0 ↔ ∀ h ∈ hs, h.hasRef id = 0 := by
  induction hs with
  | nil => simp [gmax]
  | cons h t ih =>
    rw [gmax_cons]
    simp only [List.mem_cons, forall_eq_or_imp, ← ih]
    omega

theorem maxVec_map (L : List DataId) (f g : DataId → Nat) :
    maxVec (L.map f) (L.map g) = some (L.map fun x => max (f x) (g x)) := by
  induction L with
  | nil => rfl
  | cons a t ih => simp [maxVec, ih]

theorem allreduce_map (L : List DataId) (hs : List Host) (hne : hs ≠ []) :
    allreduceMax (hs.map fun h => L.map h.hasRef) = some (L.map (gmax hs)) := by
  induction hs with
  | nil => exact absurd rfl hne
  | cons h t ih =>
    cases t with
    | nil =>
      simp only [List.map_cons, List.map_nil, allreduceMax, Option.some.injEq]
      apply List.map_congr_left
      intro a _; simp [gmax]
    | cons h2 t2 =>
      have ih := ih (by simp)
      simp only [List.map_cons, allreduceMax] at ih ⊢
      rw [ih]
      simp only [Option.bind_some, maxVec_map]
      rfl

theorem mapHosts_ok {f : Host × List DataId → Except Err Host} (ps : List (Host × List DataId)) :
    ∀ {hs' : List Host}, mapHosts f ps = .ok hs' →
      hs'.length = ps.length ∧ ∀ (i : Nat) (p : Host × List DataId) (h' : Host), ps[i]? = some p →
        hs'[i]? = some h' → f p = .ok h' := by
  induction ps with
  | nil => intro hs' h; simp [mapHosts] at h; subst h; simp
  | cons p t ih =>
    intro hs' h
    simp only [mapHosts] at h
    split at h
    · simp at h
    · rename_i h1 e1
      split at h
      · simp at h
      · rename_i t1 e2
        simp only [Except.ok.injEq] at h
        subst h
        obtain ⟨i1, i2⟩ := ih e2
        refine ⟨by simp [i1], ?_⟩
        intro i q h' hq hh
        cases i with
        | zero => simp at hq hh; subst hq; subst hh; exact e1
        | succ i => simp at hq hh; exact i2 i q h' hq hh

/-- All monitors have the same list of ids kept for the next cleanup. -/
def SamePending (hs : List Host) : Prop := ∃ L, ∀ h ∈ hs, h.mgr.pending = L

/-- Effect of a cleanup round with equal lists on every host. -/
theorem clearAll_effect {hs hs' : List Host} {l L : List DataId} (hL : ∀ h ∈ hs, h.mgr.pending = L)
    (hc : clearAll hs l = some hs') :
    hs'.length = hs.length ∧ ∀ (i : Nat) (h h' : Host), hs[i]? = some h → hs'[i]? = some h' →
      (∀ x, h'.mgr.resv x = if x ∈ L ++ l ∧ gmax hs x = 0 then none else h.mgr.resv x) ∧
      h'.mgr.pending = (L ++ l).filter (fun x => gmax hs x ≠ 0) := by
  unfold clearAll clearRound at hc
  have hne : hs ≠ [] := by
    rintro rfl
    simp [allreduceMax] at hc
  have hmap : (hs.map fun h => (h, l)).map (fun p => p.1.hasRefs p.2) =
      hs.map fun h => (L ++ l).map h.hasRef := by
    rw [List.map_map]
    apply List.map_congr_left
    intro h hh
    simp [Host.hasRefs, Host.cleanupList, hL h hh]
  rw [hmap, allreduce_map _ _ hne] at hc
  simp only at hc
  split at hc
  · rename_i hs1 e1
    simp only [Option.some.injEq] at hc
    subst hc
    obtain ⟨i1, i2⟩ := mapHosts_ok _ e1
    refine ⟨by simpa using i1, ?_⟩
    intro i h h' hi hi'
    have hcl := i2 i (h, l) h' (by simp [hi]) hi'
    simp only at hcl
    have hm : h ∈ hs := List.mem_of_getElem? hi
    have r1 := clear_resv hcl
    have r2 := clear_pending hcl
    have hz : ∀ (M : List DataId) (g : DataId → Nat), M.zip (M.map g) = M.map fun x => (x, g x) := by
      intro M g
      induction M with
      | nil => rfl
      | cons a t ih => simp [ih]
    rw [hL h hm, hz] at r2
    refine ⟨?_, ?_⟩
    · intro x
      rw [r1 x, hL h hm, hz]
      have : (x, 0) ∈ (L ++ l).map (fun x => (x, gmax hs x)) ↔ x ∈ L ++ l ∧ gmax hs x = 0 := by
        rw [List.mem_map]
        constructor
        · rintro ⟨a, ha, he⟩
          simp only [Prod.mk.injEq] at he
          obtain ⟨rfl, h2⟩ := he
          exact ⟨ha, h2⟩
        · rintro ⟨h1, h2⟩; exact ⟨x, h1, by rw [h2]⟩
      simp only [this]
    · rw [r2]
      rw [List.filter_map, List.map_map]
      have e : ((fun p : DataId × Nat => p.1) ∘ fun x => (x, gmax hs x)) = id := rfl
      rw [e, List.map_id]
      rfl
  · simp at hc

theorem samePending_clearAll {hs hs' : List Host} {l : List DataId} (hp : SamePending hs)
    (hc : clearAll hs l = some hs') : SamePending hs' := by
  obtain ⟨L, hL⟩ := hp
  obtain ⟨h1, h2⟩ := clearAll_effect hL hc
  refine ⟨(L ++ l).filter (fun x => gmax hs x ≠ 0), ?_⟩
  intro h' hm
  obtain ⟨i, hi, rfl⟩ := List.getElem_of_mem hm
  have hi2 : i < hs.length := h1 ▸ hi
  exact (h2 i hs[i] hs'[i] (by simp [hi2]) (by simp [hi])).2

theorem put_pending (m : Mgr) (id : DataId) (n : Nat) : (m.put id n).2.pending = m.pending := by
  unfold Mgr.put
  simp only
  split
  · rfl
  · split <;> rfl

theorem reserve_pending (m : Mgr) (id : DataId) (n : Nat) : (m.reserve id n).2.pending = m.pending := by
  unfold Mgr.reserve
  split
  · rfl
  · have := put_pending m id n
    split <;> (rename_i e; rw [e] at this; exact this)

theorem samePending_sysStep {hs hs' : List Host} {op : SysOp} (hp : SamePending hs)
    (hc : sysStep hs op = some hs') : SamePending hs' := by
  have hset : ∀ (k : Nat) (h h' : Host), hs[k]? = some h → h'.mgr.pending = h.mgr.pending →
      SamePending (hs.set k h') := by
    intro k h h' hk he
    obtain ⟨L, hL⟩ := hp
    refine ⟨L, ?_⟩
    intro x hx
    rcases List.mem_or_eq_of_mem_set hx with hx | rfl
    · exact hL x hx
    · rw [he]; exact hL h (List.mem_of_getElem? hk)
  cases op with
  | reserve k id n =>
    simp only [sysStep] at hc
    split at hc
    · simp only [Option.some.injEq] at hc; subst hc; exact hp
    · rename_i h hk
      split at hc
      · rename_i h' ev hst
        simp only [Option.some.injEq] at hc; subst hc
        apply hset k h h' hk
        simp only [Host.step] at hst
        split at hst
        · rename_i heq
          simp only [Option.some.injEq, Prod.mk.injEq] at hst
          rw [← hst.1]
          have := reserve_pending h.mgr id n
          rw [heq] at this
          exact this
        · simp at hst
      · simp at hc
  | poke k i v =>
    simp only [sysStep] at hc
    split at hc
    · simp only [Option.some.injEq] at hc; subst hc; exact hp
    · rename_i h hk
      simp only [Option.some.injEq] at hc; subst hc
      exact hset k h _ hk rfl
  | cleanup l => exact samePending_clearAll hp hc

theorem samePending_sysRun (ops : List SysOp) :
    ∀ {hs hs' : List Host}, SamePending hs → sysRun hs ops = some hs' → SamePending hs' := by
  induction ops with
  | nil => intro hs hs' hp hc; simp [sysRun] at hc; subst hc; exact hp
  | cons op ops ih =>
    intro hs hs' hp hc
    simp only [sysRun, Option.bind_eq_some_iff] at hc
    obtain ⟨h1, e1, e2⟩ := hc
    exact ih (samePending_sysStep hp e1) e2

theorem hasRef_zero {h : Host} {id : DataId} : h.hasRef id = 0 ↔ ¬ HostRefers h id := by
  unfold Host.hasRef HostRefers
  cases hr : h.mgr.resv id with
  | none => simp
  | some r =>
    simp only [Option.some.injEq, exists_eq_left']
    unfold refNumber checkInfo
    by_cases h1 : h.words r.svc = id.rank <;> by_cases h2 : h.words (r.svc + 1) = id.num <;>
      simp [h1, h2]

theorem zip_map_const {α β γ : Type} (a : List α) (b : List β) (c : γ) (h : a.length = b.length) :
    a.zip (b.map fun _ => c) = a.map fun x => (x, c) := by
  induction a generalizing b with
  | nil => simp
  | cons x t ih =>
    cases b with
    | nil => simp at h
    | cons y u => simp [ih u (by simpa using h)]

/-- Rounds with the same delivery order on every host: one reclaim decision for all hosts. -/
theorem runQueues_same (ls : List (List DataId)) : ∀ {hs hs' : List Host}, SamePending hs →
    runQueues ls.length (hs.map fun h => (h, ls)) = some hs' →
    hs'.length = hs.length ∧ ∃ D : DataId → Prop, ∀ (i : Nat) (h h' : Host), hs[i]? = some h → hs'[i]? = some h' →
      ∀ x, (D x → h'.mgr.resv x = none) ∧ (¬ D x → h'.mgr.resv x = h.mgr.resv x) := by
  induction ls with
  | nil =>
    intro hs hs' _ hr
    simp only [List.length_nil, runQueues, List.map_map, Option.some.injEq] at hr
    have : hs' = hs := by
      rw [← hr]; simp [Function.comp_def]
    subst this
    refine ⟨rfl, fun _ => False, ?_⟩
    intro i h h' h1 h2 x
    rw [h1] at h2
    simp only [Option.some.injEq] at h2
    subst h2
    simp
  | cons l ls ih =>
    intro hs hs' hp hr
    simp only [List.length_cons, runQueues, List.map_map] at hr
    split at hr
    · simp at hr
    · rename_i hs1 e1
      have hc : clearAll hs l = some hs1 := e1
      obtain ⟨L, hL⟩ := hp
      obtain ⟨c1, c2⟩ := clearAll_effect hL hc
      have e2 : hs1.zip (hs.map ((fun p : Host × List (List DataId) => p.2.tail) ∘ fun h => (h, l :: ls))) =
          hs1.map fun h => (h, ls) := zip_map_const hs1 hs ls c1
      rw [e2] at hr
      obtain ⟨i1, D, i2⟩ := ih (samePending_clearAll ⟨L, hL⟩ hc) hr
      refine ⟨i1.trans c1, fun x => (x ∈ L ++ l ∧ gmax hs x = 0) ∨ D x, ?_⟩
      intro i h h' hi hi' x
      have hlt : i < hs1.length := by
        rw [← i1]; exact (List.getElem?_eq_some_iff.1 hi').1
      have hm : hs1[i]? = some hs1[i] := List.getElem?_eq_getElem hlt
      have a := (c2 i h hs1[i] hi hm).1 x
      have b := i2 i hs1[i] h' hm hi' x
      refine ⟨?_, ?_⟩
      · intro hd
        by_cases hD : D x
        · exact b.1 hD
        · rw [b.2 hD, a]
          rcases hd with hd | hd
          · rw [if_pos hd]
          · exact absurd hd hD
      · intro hd
        rw [b.2 (fun q => hd (Or.inr q)), a, if_neg (fun q => hd (Or.inl q))]

end Verif.Shm
