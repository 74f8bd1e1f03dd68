import Verif.Model.Topology

/-! Helper lemmas for the roles of the MPI processes. -/
namespace Verif.Topology

section Dict
variable {α β : Type} [DecidableEq α]

theorem get_set (d : Dict α β) (k : α) (v : β) (k' : α) :
    Dict.get (Dict.set d k v) k' = if k = k' then some v else Dict.get d k' := by
  induction d with
  | nil => simp [Dict.set, Dict.get]
  | cons e t ih =>
    obtain ⟨a, b⟩ := e
    simp only [Dict.set]
    split
    · rename_i h
      subst h
      simp only [Dict.get]
      split <;> rfl
    · rename_i h
      simp only [Dict.get, ih]
      by_cases h1 : a = k'
      · subst h1
        have : ¬ k = a := fun hc => h hc.symm
        simp [this]
      · simp [h1]

theorem keys_set (d : Dict α β) (k : α) (v : β) :
    (Dict.set d k v).map (·.1) = if k ∈ d.map (·.1) then d.map (·.1) else d.map (·.1) ++ [k] := by
  induction d with
  | nil => simp [Dict.set]
  | cons e t ih =>
    obtain ⟨a, b⟩ := e
    simp only [Dict.set]
    split
    · rename_i h; subst h; simp
    · rename_i h
      simp only [List.map_cons, ih, List.mem_cons]
      have : ¬ k = a := fun hc => h hc.symm
      simp only [this, false_or]
      split <;> simp

theorem nodup_set (d : Dict α β) (k : α) (v : β) (h : (d.map (·.1)).Nodup) : ((Dict.set d k v).map (·.1)).Nodup := by
  rw [keys_set]
  split
  · exact h
  · rename_i hk
    rw [List.nodup_append]
    refine ⟨h, by simp, ?_⟩
    intro a ha b hb
    simp only [List.mem_singleton] at hb
    subst hb
    exact fun hc => hk (hc ▸ ha)

theorem mem_iff_get (d : Dict α β) (h : (d.map (·.1)).Nodup) (k : α) (v : β) : (k, v) ∈ d ↔ Dict.get d k = some v := by
  induction d with
  | nil => simp [Dict.get]
  | cons e t ih =>
    obtain ⟨a, b⟩ := e
    simp only [List.map_cons, List.nodup_cons] at h
    simp only [List.mem_cons, Prod.mk.injEq, Dict.get, ih h.2]
    split
    · rename_i hk
      subst hk
      simp only [true_and, Option.some.injEq]
      constructor
      · rintro (rfl | hc)
        · rfl
        · exact absurd (List.mem_map.2 ⟨(a, v), (ih h.2).2 hc, rfl⟩) h.1
      · intro he; exact Or.inl he.symm
    · rename_i hk
      constructor
      · rintro (⟨hc, -⟩ | hc)
        · exact absurd hc.symm hk
        · exact hc
      · exact Or.inr

end Dict

/-- What the topology says about the first `m` ranks. -/
structure TopoInv (key : Nat → Nat) (hr : Nat → Nat) (m : Nat) (t : Dict Nat (Dict Nat Nat)) : Prop where
  outer : (t.map (·.1)).Nodup
  inner : ∀ a d, (a, d) ∈ t → (d.map (·.1)).Nodup ∧ d ≠ []
  entry : ∀ a h r, (Dict.get t a).bind (Dict.get · h) = some r ↔ r < m ∧ key r = a ∧ hr r = h

theorem topoInv_step {key hr : Nat → Nat} {m : Nat} {t : Dict Nat (Dict Nat Nat)} (hi : TopoInv key hr m t)
    (fresh : ∀ r < m, key r = key m → hr r ≠ hr m) :
    TopoInv key hr (m + 1) (insertInfo t (key m, m, hr m)) := by
  have hold : ((Dict.get t (key m)).getD []).map (·.1) |>.Nodup := by
    cases hg : Dict.get t (key m) with
    | none => simp
    | some d => exact (hi.inner _ _ ((mem_iff_get t hi.outer _ _).2 hg)).1
  refine ⟨nodup_set _ _ _ hi.outer, ?_, ?_⟩
  · intro a d had
    rw [mem_iff_get _ (by exact nodup_set _ _ _ hi.outer), insertInfo, get_set] at had
    split at had
    · simp only [Option.some.injEq] at had
      subst had
      refine ⟨nodup_set _ _ _ hold, ?_⟩
      intro hc
      have := keys_set ((Dict.get t (key m)).getD []) (hr m) m
      rw [hc] at this
      simp only [List.map_nil] at this
      split at this
      · rename_i hmem; rw [← this] at hmem; simp at hmem
      · have h2 := congrArg List.length this; simp at h2
    · exact hi.inner a d ((mem_iff_get _ hi.outer _ _).2 had)
  · intro a h r
    rw [insertInfo, get_set]
    by_cases ha : key m = a
    · subst ha
      simp only [if_true, Option.bind_some, get_set]
      have hen := hi.entry (key m) h r
      have e1 : Dict.get ((Dict.get t (key m)).getD []) h = (Dict.get t (key m)).bind (Dict.get · h) := by
        cases Dict.get t (key m) <;> simp [Dict.get]
      rw [e1]
      by_cases hh : hr m = h
      · subst hh
        simp only [if_true, Option.some.injEq]
        constructor
        · rintro rfl; exact ⟨by omega, rfl, rfl⟩
        · rintro ⟨h1, h2, h3⟩
          by_cases hr' : r = m
          · exact hr'.symm
          · exact absurd h3 (fresh r (by omega) h2)
      · simp only [hh, if_false, hen]
        constructor
        · rintro ⟨h1, h2, h3⟩; exact ⟨by omega, h2, h3⟩
        · rintro ⟨h1, h2, h3⟩
          refine ⟨?_, h2, h3⟩
          rcases Nat.lt_or_ge r m with h4 | h4
          · exact h4
          · have : r = m := by omega
            subst this
            exact absurd h3 hh
    · simp only [ha, if_false, hi.entry]
      constructor
      · rintro ⟨h1, h2, h3⟩; exact ⟨by omega, h2, h3⟩
      · rintro ⟨h1, h2, h3⟩
        refine ⟨?_, h2, h3⟩
        rcases Nat.lt_or_ge r m with h4 | h4
        · exact h4
        · have : r = m := by omega
          subst this
          exact absurd h2 ha

theorem topoInv_fold (key hr : Nat → Nat) (fresh : ∀ r s, r < s → key r = key s → hr r ≠ hr s) (m : Nat) :
    TopoInv key hr m (((List.range m).map fun r => (key r, r, hr r)).foldl insertInfo []) := by
  induction m with
  | zero => exact ⟨by simp, by simp, by simp [Dict.get]⟩
  | succ m ih =>
    rw [List.range_succ, List.map_append, List.foldl_append]
    exact topoInv_step ih (fun r hr' hk => fresh r m hr' hk)

theorem hostByRank_fold (key hr : Nat → Nat) (m r : Nat) :
    Dict.get ((((List.range m).map fun r => (key r, r, hr r))).foldl (fun d i => Dict.set d i.2.1 i.1) []) r =
      if r < m then some (key r) else none := by
  induction m with
  | zero => simp [Dict.get]
  | succ m ih =>
    rw [List.range_succ, List.map_append, List.foldl_append]
    simp only [List.map_cons, List.map_nil, List.foldl_cons, List.foldl_nil]
    rw [get_set, ih]
    by_cases h : m = r
    · subst h; simp
    · simp only [h, if_false]
      by_cases h2 : r < m
      · have : r < m + 1 := by omega
        simp [h2, this]
      · have : ¬ r < m + 1 := by omega
        simp [h2, this]

/-- Host ranks on one node are different: a later rank counts the earlier one. -/
theorem countP_take_lt (l : List Nat) (p : Nat → Bool) (r s : Nat) (h : r < s) (hs : s ≤ l.length)
    (hp : p (l.getD r 0) = true) : (l.take r).countP p < (l.take s).countP p := by
  have e1 : l.take (r + 1) = l.take r ++ [l.getD r 0] := by
    rw [List.take_add_one, List.getD_eq_getElem?_getD, List.getElem?_eq_getElem (by omega)]
    simp
  have h1 : (l.take (r + 1)).countP p = (l.take r).countP p + 1 := by
    rw [e1, List.countP_append]
    simp only [List.countP_cons, hp, List.countP_nil, if_true]
  have h2 : (l.take (r + 1)).countP p ≤ (l.take s).countP p := by
    apply List.Sublist.countP_le
    exact (List.take_prefix_take_left (by omega)).sublist
  omega

theorem hostRank_lt (l : Layout) (r s : Nat) (h : r < s) (hs : s < l.nodes.length)
    (hn : l.nodes.getD r 0 = l.nodes.getD s 0) : l.hostRank r < l.hostRank s := by
  simp only [Layout.hostRank, hn]
  exact countP_take_lt _ _ r s h (by omega) (by rw [hn]; exact beq_self_eq_true _)

/-- Different nodes report different addresses. -/
def Layout.Distinct (l : Layout) : Prop := ∀ m ∈ l.nodes, ∀ n ∈ l.nodes, l.addr m = l.addr n → m = n

theorem getD_mem (l : List Nat) (r : Nat) (h : r < l.length) : l.getD r 0 ∈ l := by
  rw [List.getD_eq_getElem?_getD, List.getElem?_eq_getElem h]
  simp

/-- Out of range ranks get fresh host ranks, which makes the freshness hypothesis total. -/
theorem topology_inv (l : Layout) (hd : l.Distinct) :
    TopoInv (fun r => l.addr (l.nodes.getD r 0)) l.hostRank l.nodes.length (l.clusterInfo.foldl insertInfo []) := by
  have key : ∀ m ≤ l.nodes.length, TopoInv (fun r => l.addr (l.nodes.getD r 0)) l.hostRank m
      (((List.range m).map fun r => (l.addr (l.nodes.getD r 0), r, l.hostRank r)).foldl insertInfo []) := by
    intro m
    induction m with
    | zero => intro _; exact ⟨by simp, by simp, by simp [Dict.get]⟩
    | succ m ih =>
      intro hm
      rw [List.range_succ, List.map_append, List.foldl_append]
      refine topoInv_step (ih (by omega)) ?_
      intro r hr hk
      have hn := hd _ (getD_mem _ r (by omega)) _ (getD_mem _ m (by omega)) hk
      have := hostRank_lt l r m hr (by omega) hn
      omega
  exact key _ (Nat.le_refl _)

/-- All host ranks up to the host rank of `r` occur on its node. -/
theorem hostRank_surj (l : Layout) (r : Nat) (hr : r < l.nodes.length) (h : Nat) (hh : h ≤ l.hostRank r) :
    ∃ s ≤ r, l.nodes.getD s 0 = l.nodes.getD r 0 ∧ l.hostRank s = h := by
  have key : ∀ m ≤ r, ∀ h < (l.nodes.take m).countP (· == l.nodes.getD r 0),
      ∃ s < m, l.nodes.getD s 0 = l.nodes.getD r 0 ∧ l.hostRank s = h := by
    intro m
    induction m with
    | zero => intro _ h hh; simp at hh
    | succ m ih =>
      intro hm h hh
      have e1 : l.nodes.take (m + 1) = l.nodes.take m ++ [l.nodes.getD m 0] := by
        rw [List.take_add_one, List.getD_eq_getElem?_getD, List.getElem?_eq_getElem (by omega)]
        simp
      rw [e1, List.countP_append] at hh
      by_cases h1 : h < (l.nodes.take m).countP (· == l.nodes.getD r 0)
      · obtain ⟨s, a, b, c⟩ := ih (by omega) h h1
        exact ⟨s, by omega, b, c⟩
      · by_cases hq : l.nodes.getD m 0 = l.nodes.getD r 0
        · refine ⟨m, by omega, hq, ?_⟩
          simp only [List.countP_cons, List.countP_nil] at hh
          simp only [Layout.hostRank, hq]
          split at hh <;> omega
        · simp [List.countP_cons, List.countP_nil] at hh
          simp only [List.getD_eq_getElem?_getD] at hq h1 hh
          simp [hq] at hh
          omega
  rcases Nat.lt_or_ge h (l.hostRank r) with h1 | h1
  · obtain ⟨s, a, b, c⟩ := key r (Nat.le_refl _) h h1
    exact ⟨s, by omega, b, c⟩
  · exact ⟨r, Nat.le_refl _, rfl, by omega⟩

theorem hostRank_zero (l : Layout) : l.hostRank 0 = 0 := by simp [Layout.hostRank]

theorem collect_ok {me : Nat} {t : Dict Nat (Dict Nat Nat)} {ms : List Nat} (h : collectMonitors me t = .ok ms) :
    ∀ m, m ∈ ms ↔ ∃ a d, (a, d) ∈ t ∧ 2 ≤ d.length ∧ Dict.get d 1 = some m := by
  induction t generalizing ms with
  | nil => simp only [collectMonitors, Except.ok.injEq] at h; subst h; simp
  | cons e t ih =>
    obtain ⟨a, d⟩ := e
    intro m
    simp only [collectMonitors] at h
    split at h
    · rename_i hl
      split at h
      · rename_i m' hm'
        cases hc : collectMonitors me t with
        | error e => rw [hc] at h; simp [Except.map] at h
        | ok ms' =>
          rw [hc] at h
          simp only [Except.map, Except.ok.injEq] at h
          subst h
          simp only [List.mem_cons, ih hc, Prod.mk.injEq]
          constructor
          · rintro (rfl | ⟨a', d', h1, h2, h3⟩)
            · exact ⟨a, d, Or.inl ⟨rfl, rfl⟩, hl, hm'⟩
            · exact ⟨a', d', Or.inr h1, h2, h3⟩
          · rintro ⟨a', d', ⟨rfl, rfl⟩ | h1, h2, h3⟩
            · rw [hm'] at h3; injection h3 with h3; exact Or.inl h3.symm
            · exact Or.inr ⟨a', d', h1, h2, h3⟩
      · simp at h
    · rename_i hl
      split at h
      · simp at h
      · simp only [ih h, List.mem_cons, Prod.mk.injEq]
        constructor
        · rintro ⟨a', d', h1, h2, h3⟩; exact ⟨a', d', Or.inr h1, h2, h3⟩
        · rintro ⟨a', d', ⟨rfl, rfl⟩ | h1, h2, h3⟩
          · exact absurd h2 hl
          · exact ⟨a', d', h1, h2, h3⟩

theorem collect_root {t : Dict Nat (Dict Nat Nat)} {ms : List Nat} (h : collectMonitors 0 t = .ok ms) :
    (∀ a d, (a, d) ∈ t → 2 ≤ d.length) ∧ ms.length = t.length := by
  induction t generalizing ms with
  | nil => simp only [collectMonitors, Except.ok.injEq] at h; subst h; simp
  | cons e t ih =>
    obtain ⟨a, d⟩ := e
    simp only [collectMonitors] at h
    split at h
    · rename_i hl
      split at h
      · cases hc : collectMonitors 0 t with
        | error e => rw [hc] at h; simp [Except.map] at h
        | ok ms' =>
          rw [hc] at h
          simp only [Except.map, Except.ok.injEq] at h
          subst h
          obtain ⟨i1, i2⟩ := ih hc
          refine ⟨?_, by simp [i2]⟩
          intro a' d' hm
          simp only [List.mem_cons, Prod.mk.injEq] at hm
          rcases hm with ⟨rfl, rfl⟩ | hm
          · exact hl
          · exact i1 a' d' hm
      · simp at h
    · simp at h

theorem collect_nodup {me : Nat} {t : Dict Nat (Dict Nat Nat)} {ms : List Nat} (h : collectMonitors me t = .ok ms)
    (hdis : t.Pairwise fun x y => ∀ m, Dict.get x.2 1 = some m → Dict.get y.2 1 ≠ some m) : ms.Nodup := by
  induction t generalizing ms with
  | nil => simp only [collectMonitors, Except.ok.injEq] at h; subst h; simp
  | cons e t ih =>
    obtain ⟨a, d⟩ := e
    rw [List.pairwise_cons] at hdis
    simp only [collectMonitors] at h
    split at h
    · split at h
      · rename_i m' hm'
        cases hc : collectMonitors me t with
        | error e => rw [hc] at h; simp [Except.map] at h
        | ok ms' =>
          rw [hc] at h
          simp only [Except.map, Except.ok.injEq] at h
          subst h
          rw [List.nodup_cons]
          refine ⟨?_, ih hc hdis.2⟩
          intro hmem
          obtain ⟨a', d', h1, h2, h3⟩ := (collect_ok hc m').1 hmem
          exact hdis.1 (a', d') h1 m' hm' h3
      · simp at h
    · split at h
      · simp at h
      · exact ih h hdis.2

/-- With entries of all sufficiently large hosts containing host rank 1, collecting never fails with `KeyError`. -/
theorem collect_total (me : Nat) (t : Dict Nat (Dict Nat Nat))
    (hk : ∀ a d, (a, d) ∈ t → 2 ≤ d.length → ∃ m, Dict.get d 1 = some m)
    (h2 : me = 0 → ∀ a d, (a, d) ∈ t → 2 ≤ d.length) : ∃ ms, collectMonitors me t = .ok ms := by
  induction t with
  | nil => exact ⟨[], rfl⟩
  | cons e t ih =>
    obtain ⟨a, d⟩ := e
    obtain ⟨ms, hms⟩ := ih (fun a d h => hk a d (List.mem_cons_of_mem _ h)) (fun h a d hm => h2 h a d (List.mem_cons_of_mem _ hm))
    simp only [collectMonitors]
    split
    · rename_i hl
      obtain ⟨m, hm⟩ := hk a d (by simp) hl
      rw [hm, hms]
      exact ⟨m :: ms, rfl⟩
    · rename_i hl
      split
      · rename_i h0; exact absurd (h2 h0 a d (by simp)) hl
      · exact ⟨ms, hms⟩

end Verif.Topology

namespace Verif.Topology

/-- Everything about the ranks listed in a topology. -/
theorem topo_values {key hr : Nat → Nat} {m : Nat} {t : Dict Nat (Dict Nat Nat)} (hi : TopoInv key hr m t) (a : Nat)
    (d : Dict Nat Nat) (h : (a, d) ∈ t) (r : Nat) : r ∈ d.map (·.2) ↔ r < m ∧ key r = a := by
  have hg := (mem_iff_get t hi.outer _ _).1 h
  have hin := (hi.inner a d h).1
  simp only [List.mem_map, Prod.exists, exists_eq_right]
  constructor
  · rintro ⟨x, hx⟩
    have hx' := (mem_iff_get d hin _ _).1 hx
    have := (hi.entry a x r).1 (by rw [hg]; exact hx')
    exact ⟨this.1, this.2.1⟩
  · rintro ⟨h1, h2⟩
    refine ⟨hr r, (mem_iff_get d hin _ _).2 ?_⟩
    have := (hi.entry a (hr r) r).2 ⟨h1, h2, rfl⟩
    rw [hg] at this
    exact this

theorem topo_has {key hr : Nat → Nat} {m : Nat} {t : Dict Nat (Dict Nat Nat)} (hi : TopoInv key hr m t) (r : Nat)
    (h : r < m) : ∃ d, (key r, d) ∈ t ∧ Dict.get d (hr r) = some r := by
  have := (hi.entry (key r) (hr r) r).2 ⟨h, rfl, rfl⟩
  rw [Option.bind_eq_some_iff] at this
  obtain ⟨d, h1, h2⟩ := this
  exact ⟨d, (mem_iff_get t hi.outer _ _).2 h1, h2⟩

theorem topo_nodup_values {key hr : Nat → Nat} {m : Nat} {t : Dict Nat (Dict Nat Nat)} (hi : TopoInv key hr m t) (a : Nat)
    (d : Dict Nat Nat) (h : (a, d) ∈ t) : (d.map (·.2)).Nodup := by
  have hg := (mem_iff_get t hi.outer _ _).1 h
  have hin := (hi.inner a d h).1
  have hval : ∀ x y, (x, y) ∈ d → hr y = x := by
    intro x y hxy
    have := (mem_iff_get d hin _ _).1 hxy
    exact ((hi.entry a x y).1 (by rw [hg]; exact this)).2.2
  clear hg h
  induction d with
  | nil => simp
  | cons e t' ih =>
    obtain ⟨x, y⟩ := e
    simp only [List.map_cons, List.nodup_cons] at hin ⊢
    refine ⟨?_, ih hin.2 (fun x y h => hval x y (List.mem_cons_of_mem _ h))⟩
    intro hc
    simp only [List.mem_map, Prod.exists, exists_eq_right] at hc
    obtain ⟨x', hx'⟩ := hc
    have h1 := hval x y (by simp)
    have h2 := hval x' y (List.mem_cons_of_mem _ hx')
    rw [h1] at h2
    subst h2
    exact hin.1 (List.mem_map.2 ⟨_, hx', rfl⟩)

theorem topo_pairwise {key hr : Nat → Nat} {m : Nat} {t : Dict Nat (Dict Nat Nat)} (hi : TopoInv key hr m t) :
    t.Pairwise fun x y => ∀ r, r ∈ x.2.map (·.2) → r ∉ y.2.map (·.2) := by
  have hout := hi.outer
  rw [List.Nodup, List.pairwise_map] at hout
  refine List.Pairwise.imp_of_mem ?_ hout
  intro x y hx hy hne r h1 h2
  have e1 := (topo_values hi x.1 x.2 hx r).1 h1
  have e2 := (topo_values hi y.1 y.2 hy r).1 h2
  exact hne (e1.2.symm.trans e2.2)

theorem get_mem_values {α β : Type} [DecidableEq α] {d : Dict α β} {k : α} {v : β} (h : Dict.get d k = some v) : v ∈ d.map (·.2) := by
  induction d with
  | nil => simp [Dict.get] at h
  | cons e t ih =>
    obtain ⟨a, b⟩ := e
    simp only [Dict.get] at h
    split at h
    · simp only [Option.some.injEq] at h; subst h; simp
    · simp only [List.map_cons, List.mem_cons]; exact Or.inr (ih h)

theorem two_le_iff (l : Layout) (hd : l.Distinct) (a : Nat) (d : Dict Nat Nat)
    (h : (a, d) ∈ l.clusterInfo.foldl insertInfo []) : 2 ≤ d.length → ∃ m, Dict.get d 1 = some m := by
  intro hl
  have hi := topology_inv l hd
  have hg := (mem_iff_get _ hi.outer _ _).1 h
  have hin := (hi.inner a d h).1
  -- two different host ranks, so one is at least 1
  match d, hl with
  | (x1, y1) :: (x2, y2) :: d', _ =>
    simp only [List.map_cons, List.nodup_cons, List.mem_cons, not_or] at hin
    have g1 := (hi.entry a x1 y1).1 (by rw [hg]; simp [Dict.get])
    have hx : ¬ x1 = x2 := hin.1.1
    have g2 := (hi.entry a x2 y2).1 (by rw [hg]; simp [Dict.get, hx])
    have fin : ∀ y, y < l.nodes.length → l.addr (l.nodes.getD y 0) = a → 1 ≤ l.hostRank y →
        ∃ m, Dict.get ((x1, y1) :: (x2, y2) :: d') 1 = some m := by
      intro y hy ha h1
      obtain ⟨s, s1, s2, s3⟩ := hostRank_surj l y hy 1 h1
      have := (hi.entry a 1 s).2 ⟨by omega, by rw [s2]; exact ha, s3⟩
      rw [hg] at this
      exact ⟨s, this⟩
    rcases Nat.lt_or_ge 0 x1 with h1 | h1
    · exact fin y1 g1.1 g1.2.1 (by omega)
    · exact fin y2 g2.1 g2.2.1 (by omega)

/-- What the topology says about the first `m` ranks, whatever the keys are: the last rank with a key is kept. -/
structure TopoLast (key : Nat → Nat) (hr : Nat → Nat) (m : Nat) (t : Dict Nat (Dict Nat Nat)) : Prop where
  outer : (t.map (·.1)).Nodup
  inner : ∀ a d, (a, d) ∈ t → (d.map (·.1)).Nodup
  entry : ∀ a h r, (Dict.get t a).bind (Dict.get · h) = some r ↔
    r < m ∧ key r = a ∧ hr r = h ∧ ∀ r', r < r' → r' < m → key r' = a → hr r' ≠ h

theorem topoLast_step {key hr : Nat → Nat} {m : Nat} {t : Dict Nat (Dict Nat Nat)} (hi : TopoLast key hr m t) :
    TopoLast key hr (m + 1) (insertInfo t (key m, m, hr m)) := by
  have hold : ((Dict.get t (key m)).getD []).map (·.1) |>.Nodup := by
    cases hg : Dict.get t (key m) with
    | none => simp
    | some d => exact hi.inner _ _ ((mem_iff_get t hi.outer _ _).2 hg)
  refine ⟨nodup_set _ _ _ hi.outer, ?_, ?_⟩
  · intro a d had
    rw [mem_iff_get _ (by exact nodup_set _ _ _ hi.outer), insertInfo, get_set] at had
    split at had
    · simp only [Option.some.injEq] at had
      subst had
      exact nodup_set _ _ _ hold
    · exact hi.inner a d ((mem_iff_get _ hi.outer _ _).2 had)
  · intro a h r
    have hold' : ¬ (key m = a ∧ hr m = h) →
        ((r < m ∧ key r = a ∧ hr r = h ∧ ∀ r', r < r' → r' < m → key r' = a → hr r' ≠ h) ↔
          (r < m + 1 ∧ key r = a ∧ hr r = h ∧ ∀ r', r < r' → r' < m + 1 → key r' = a → hr r' ≠ h)) := by
      intro hne
      constructor
      · rintro ⟨h1, h2, h3, h4⟩
        refine ⟨by omega, h2, h3, ?_⟩
        intro r' a1 a2 a3 a4
        by_cases e : r' = m
        · subst e; exact hne ⟨a3, a4⟩
        · exact h4 r' a1 (by omega) a3 a4
      · rintro ⟨h1, h2, h3, h4⟩
        refine ⟨?_, h2, h3, fun r' a1 a2 => h4 r' a1 (by omega)⟩
        by_cases e : r = m
        · subst e; exact absurd ⟨h2, h3⟩ hne
        · omega
    rw [insertInfo, get_set]
    by_cases ha : key m = a
    · subst ha
      simp only [if_true, Option.bind_some, get_set]
      have e1 : Dict.get ((Dict.get t (key m)).getD []) h = (Dict.get t (key m)).bind (Dict.get · h) := by
        cases Dict.get t (key m) <;> simp [Dict.get]
      rw [e1]
      by_cases hh : hr m = h
      · subst hh
        simp only [if_true, Option.some.injEq]
        constructor
        · rintro rfl
          refine ⟨by omega, rfl, rfl, fun r' a1 a2 => by omega⟩
        · rintro ⟨h1, h2, h3, h4⟩
          by_cases hr' : r = m
          · exact hr'.symm
          · exact absurd rfl (h4 m (by omega) (by omega) rfl)
      · simp only [hh, if_false, hi.entry]
        exact hold' fun e => hh e.2
    · simp only [ha, if_false, hi.entry]
      exact hold' fun e => ha e.1

theorem topology_last (l : Layout) :
    TopoLast (fun r => l.addr (l.nodes.getD r 0)) l.hostRank l.nodes.length (l.clusterInfo.foldl insertInfo []) := by
  have key : ∀ m, TopoLast (fun r => l.addr (l.nodes.getD r 0)) l.hostRank m
      (((List.range m).map fun r => (l.addr (l.nodes.getD r 0), r, l.hostRank r)).foldl insertInfo []) := by
    intro m
    induction m with
    | zero => exact ⟨by simp, by simp, by simp [Dict.get]⟩
    | succ m ih =>
      rw [List.range_succ, List.map_append, List.foldl_append]
      exact topoLast_step ih
  exact key _

/-- The ranks that are found in the topology. -/
theorem mem_topology {key hr : Nat → Nat} {m : Nat} {t : Dict Nat (Dict Nat Nat)} (hi : TopoLast key hr m t) (r : Nat) :
    (∃ e ∈ t, r ∈ e.2.map (·.2)) ↔ r < m ∧ ∀ r', r < r' → r' < m → key r' = key r → hr r' ≠ hr r := by
  constructor
  · rintro ⟨⟨a, d⟩, he, hr'⟩
    obtain ⟨⟨h, r'⟩, hd, rfl⟩ := List.mem_map.1 hr'
    have h1 := (mem_iff_get d (hi.inner a d he) _ _).1 hd
    have h2 := (mem_iff_get t hi.outer _ _).1 he
    obtain ⟨h3, rfl, rfl, h4⟩ := (hi.entry a h r').1 (by rw [h2]; exact h1)
    exact ⟨h3, h4⟩
  · rintro ⟨h1, h2⟩
    have := (hi.entry (key r) (hr r) r).2 ⟨h1, rfl, rfl, h2⟩
    cases hg : Dict.get t (key r) with
    | none => rw [hg] at this; cases this
    | some d =>
      rw [hg] at this
      refine ⟨(key r, d), (mem_iff_get t hi.outer _ _).2 hg, ?_⟩
      have hin := hi.inner _ _ ((mem_iff_get t hi.outer _ _).2 hg)
      exact List.mem_map.2 ⟨(hr r, r), (mem_iff_get d hin _ _).2 this, rfl⟩

end Verif.Topology
