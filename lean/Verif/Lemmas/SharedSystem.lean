import Verif.Spec.SharedSystem
import Verif.Lemmas.ShmSystem
import Verif.Lemmas.ShmLog
import Verif.Lemmas.SharedBuffer

/-! Invariant of one host of the shared object store. -/
namespace Verif.SharedSystem
open Verif.Shm Verif.SharedBuffer Verif.Spec Verif.FreeMemory

/-- The object `id` is complete and registered in cell `s`. -/
def Live (n : Node) (id : DataId) (s : Nat) : Prop :=
  ∃ r, n.host.mgr.resv id = some r ∧ r.svc = s ∧ checkInfo n.host.words id s = true

/-- Number of registrations of `id`. -/
def cnt (l : List Hold) (id : DataId) : Nat := l.countP fun h => h.id = id

structure NInv (memLen svcLen : Nat) (objs : DataId → Option Serialized) (n : Node) : Prop where
  minv : MInv memLen svcLen n.host.mgr
  pendResv : ∀ q ∈ n.pend, n.host.mgr.resv q.id = some q.resv
  pendNo : ∀ q ∈ n.pend, checkInfo n.host.words q.id q.resv.svc = false
  pendUniq : (n.pend.map (·.id)).Nodup
  cover : ∀ id r, n.host.mgr.resv id = some r → (∃ q ∈ n.pend, q.id = id) ∨ checkInfo n.host.words id r.svc = true
  ident : ∀ id s, 4 ∣ s → checkInfo n.host.words id s = true → ∃ r, n.host.mgr.resv id = some r ∧ r.svc = s
  size : ∀ id r, n.host.mgr.resv id = some r → ∃ d, objs id = some d ∧ r.last = r.first + dataSize d
  job : ∀ q ∈ n.pend, ∀ d, q.job = .put d → objs q.id = some d
  filled : ∀ q ∈ n.pend, q.filled = true → ∀ d, objs q.id = some d → ∀ s,
    SharedBuffer.read n.mem q.resv.first (infoOf d s) = d
  pub : ∀ id r, n.host.mgr.resv id = some r → checkInfo n.host.words id r.svc = true →
    (∀ d, objs id = some d → ∀ s, SharedBuffer.read n.mem r.first (infoOf d s) = d) ∧
      n.host.words (r.svc + 2) = r.first ∧ n.host.words (r.svc + 3) = cnt n.holders id
  hold : ∀ h ∈ n.holders, Live n h.id h.svc
  chk : ∀ h ∈ n.checked, Live n h.id h.svc

theorem checkInfo_iff {w : Words} {id : DataId} {s : Nat} :
    checkInfo w id s = true ↔ w s = id.rank ∧ w (s + 1) = id.num := by
  simp [checkInfo]

theorem checkInfo_unique {w : Words} {a b : DataId} {s : Nat} (h1 : checkInfo w a s = true)
    (h2 : checkInfo w b s = true) : a = b := by
  rw [checkInfo_iff] at h1 h2
  obtain ⟨ar, an⟩ := a
  obtain ⟨br, bn⟩ := b
  simp only at h1 h2
  have e1 : ar = br := by omega
  have e2 : an = bn := by omega
  rw [e1, e2]

/-- The words change only in cell `s0`. -/
def OnlyCell (w w' : Words) (s0 : Nat) : Prop := ∀ i, i < s0 ∨ s0 + 4 ≤ i → w' i = w i

theorem onlyCell_check {w w' : Words} {s0 s : Nat} (h : OnlyCell w w' s0) (h0 : 4 ∣ s0) (h1 : 4 ∣ s) (hne : s ≠ s0)
    (id : DataId) : checkInfo w' id s = checkInfo w id s := by
  unfold checkInfo
  rw [h s (by omega), h (s + 1) (by omega)]

theorem onlyCell_word {w w' : Words} {s0 s : Nat} (h : OnlyCell w w' s0) (h0 : 4 ∣ s0) (h1 : 4 ∣ s) (hne : s ≠ s0)
    {j : Nat} (hj : j < 4) : w' (s + j) = w (s + j) := h _ (by omega)

theorem slot_inj {memLen svcLen : Nat} {m : Mgr} (h : MInv memLen svcLen m) {a b : DataId} {ra rb : Resv}
    (ha : m.resv a = some ra) (hb : m.resv b = some rb) (he : ra.svc = rb.svc) : a = b := by
  apply Classical.byContradiction
  intro hne
  have := h.svc.disj a b (ra.svc, ra.svc + infoSize) (rb.svc, rb.svc + infoSize) hne (by simp [svcLive, ha])
    (by simp [svcLive, hb])
  exact this ra.svc ⟨⟨Nat.le_refl _, by simp [infoSize]⟩, by simp [he], by simp [he, infoSize]⟩

theorem range_disj {memLen svcLen : Nat} {m : Mgr} (h : MInv memLen svcLen m) {a b : DataId} {ra rb : Resv}
    (ha : m.resv a = some ra) (hb : m.resv b = some rb) (hne : a ≠ b) {x : Nat} (h1 : ra.first ≤ x) (h2 : x < ra.last) :
    x < rb.first ∨ rb.last ≤ x := by
  have := h.mem.disj a b (ra.first, ra.last) (rb.first, rb.last) hne (by simp [memLive, ha]) (by simp [memLive, hb]) x
  simp only at this
  apply Classical.byContradiction
  intro hn
  exact this ⟨⟨h1, h2⟩, by omega, by omega⟩

theorem infoOf_size (d : Serialized) (s : Nat) : infoDataSize (infoOf d s) = dataSize d := rfl

theorem read_keep {m m' : Mem} {f : Nat} {d : Serialized} {s : Nat} (h : SharedBuffer.read m f (infoOf d s) = d)
    (hk : ∀ k, f ≤ k → k < f + dataSize d → m' k = m k) : SharedBuffer.read m' f (infoOf d s) = d := by
  rw [read_congr (m' := m)]
  · exact h
  · exact hk

theorem ninv_objs {memLen svcLen : Nat} {objs : DataId → Option Serialized} {n : Node} (h : NInv memLen svcLen objs n)
    {id : DataId} {d : Serialized} (hid : objs id = none) : NInv memLen svcLen (upd objs id (some d)) n := by
  have key : ∀ x r, n.host.mgr.resv x = some r → upd objs id (some d) x = objs x := by
    intro x r hx
    obtain ⟨d', hd, -⟩ := h.size x r hx
    rw [upd_other]
    rintro rfl
    rw [hid] at hd
    exact absurd hd (by simp)
  refine ⟨h.minv, h.pendResv, h.pendNo, h.pendUniq, h.cover, h.ident, ?_, ?_, ?_, ?_, h.hold, h.chk⟩
  · intro x r hx
    rw [key x r hx]
    exact h.size x r hx
  · intro q hq d' hj
    rw [key _ _ (h.pendResv q hq)]
    exact h.job q hq d' hj
  · intro q hq hf d' hd
    rw [key _ _ (h.pendResv q hq)] at hd
    exact h.filled q hq hf d' hd
  · intro x r hx hc
    rw [key x r hx]
    exact h.pub x r hx hc

/-- What a reservation request does to the manager. -/
theorem reserve_cases {memLen svcLen len : Nat} {m m' : Mgr} {id : DataId} {r : Resv} {b : Bool} (hn : 1 ≤ len)
    (h : MInv memLen svcLen m) (hr : m.reserve id len = (.ok (r, b), m')) :
    MInv memLen svcLen m' ∧ m'.pending = m.pending ∧
      ((b = false ∧ m' = m ∧ m.resv id = some r) ∨
       (b = true ∧ m.resv id = none ∧ r.last = r.first + len ∧ m'.resv = upd m.resv id (some r))) := by
  refine ⟨by have := minv_reserve (id := id) hn h; rw [hr] at this; exact this,
    by have := reserve_pending m id len; rw [hr] at this; exact this, ?_⟩
  simp only [Mgr.reserve, Mgr.get] at hr
  split at hr
  · rename_i r0 hg
    simp only [Prod.mk.injEq, Except.ok.injEq] at hr
    obtain ⟨⟨rfl, rfl⟩, rfl⟩ := hr
    exact Or.inl ⟨rfl, rfl, hg⟩
  · rename_i hg
    split at hr
    · rename_i r1 m1 hp
      simp only [Prod.mk.injEq, Except.ok.injEq] at hr
      obtain ⟨⟨rfl, rfl⟩, rfl⟩ := hr
      refine Or.inr ⟨rfl, hg, ?_, put_ok_resv hp⟩
      unfold Mgr.put at hp
      simp only at hp
      generalize ho : occupy m.mem len = o at hp
      generalize hq : occupy m.svc infoSize = q at hp
      obtain ⟨o1, o2⟩ := o
      obtain ⟨q1, q2⟩ := q
      cases o1 with
      | none => simp at hp
      | some p =>
        cases q1 with
        | none => simp at hp
        | some p2 =>
          simp only [Prod.mk.injEq, Except.ok.injEq] at hp
          obtain ⟨rfl, rfl⟩ := hp
          exact (ainv_occupy (id := id) hn h.mem ho).1
    · simp at hr

theorem ninv_request {memLen svcLen p : Nat} {objs : DataId → Option Serialized} {n n' : Node} {id : DataId} {d : Serialized}
    {job : Job} (h : NInv memLen svcLen objs n) (hd : objs id = some d) (hn : 1 ≤ dataSize d)
    (hjob : job = .sync ∨ (job = .put d ∧ n.host.mgr.resv id = none)) (hr : n.request p id (dataSize d) job = some n') :
    NInv memLen svcLen objs n' := by
  unfold Node.request at hr
  split at hr
  · rename_i r b m heq
    obtain ⟨i1, -, i3⟩ := reserve_cases hn h.minv heq
    simp only [Option.some.injEq] at hr
    subst hr
    rcases i3 with ⟨rfl, rfl, hres⟩ | ⟨rfl, hnone, hlen, hupd⟩
    · rcases hjob with rfl | ⟨-, hc⟩
      · simpa using h
      · rw [hres] at hc; simp at hc
    · have hadd : (if (true = true ∨ job ≠ .sync) then n.pend ++ [⟨p, id, r, job, false⟩] else n.pend) =
          n.pend ++ [⟨p, id, r, job, false⟩] := by simp
      rw [hadd]
      have hold : ∀ x rx, n.host.mgr.resv x = some rx → m.resv x = some rx := by
        intro x rx hx
        rw [hupd, upd_other]
        · exact hx
        · rintro rfl; rw [hnone] at hx; simp at hx
      have hnew : m.resv id = some r := by rw [hupd, upd_same]
      have hback : ∀ x rx, m.resv x = some rx → x = id ∧ rx = r ∨ n.host.mgr.resv x = some rx := by
        intro x rx hx
        rw [hupd, upd_apply] at hx
        split at hx
        · rename_i e; simp only [Option.some.injEq] at hx; exact Or.inl ⟨e, hx.symm⟩
        · exact Or.inr hx
      have hslot : checkInfo n.host.words id r.svc = false := by
        cases hc : checkInfo n.host.words id r.svc with
        | false => rfl
        | true =>
          obtain ⟨r0, h0, -⟩ := h.ident id r.svc (i1.slot id r hnew) hc
          rw [hnone] at h0; simp at h0
      have hlive : ∀ x s, Live n x s → ∃ rx, m.resv x = some rx ∧ rx.svc = s ∧ checkInfo n.host.words x s = true := by
        rintro x s ⟨rx, a, b, c⟩
        exact ⟨rx, hold x rx a, b, c⟩
      refine ⟨i1, ?_, ?_, ?_, ?_, ?_, ?_, ?_, ?_, ?_, ?_, ?_⟩
      · intro q hq
        rcases List.mem_append.1 hq with hq | hq
        · exact hold _ _ (h.pendResv q hq)
        · rw [List.mem_singleton.1 hq]; exact hnew
      · intro q hq
        rcases List.mem_append.1 hq with hq | hq
        · exact h.pendNo q hq
        · rw [List.mem_singleton.1 hq]; exact hslot
      · simp only [List.map_append, List.map_cons, List.map_nil]
        rw [List.nodup_append]
        refine ⟨h.pendUniq, by simp, ?_⟩
        intro a ha b hb
        obtain ⟨q, hq, rfl⟩ := List.mem_map.1 ha
        rw [List.mem_singleton.1 hb]
        intro e
        have := h.pendResv q hq
        rw [e, hnone] at this
        simp at this
      · intro x rx hx
        rcases hback x rx hx with ⟨rfl, rfl⟩ | hx
        · exact Or.inl ⟨⟨p, x, rx, job, false⟩, by simp, rfl⟩
        · rcases h.cover x rx hx with ⟨q, hq, e⟩ | hc
          · exact Or.inl ⟨q, by simp [hq], e⟩
          · exact Or.inr hc
      · intro x s hs hc
        obtain ⟨rx, a, b⟩ := h.ident x s hs hc
        exact ⟨rx, hold x rx a, b⟩
      · intro x rx hx
        rcases hback x rx hx with ⟨rfl, rfl⟩ | hx
        · exact ⟨d, hd, hlen⟩
        · exact h.size x rx hx
      · intro q hq d' hj
        rcases List.mem_append.1 hq with hq | hq
        · exact h.job q hq d' hj
        · rw [List.mem_singleton.1 hq] at hj ⊢
          simp only at hj ⊢
          rcases hjob with e | ⟨e, -⟩
          · rw [e] at hj; simp at hj
          · rw [e] at hj; simp only [Job.put.injEq] at hj; rw [← hj]; exact hd
      · intro q hq hf
        rcases List.mem_append.1 hq with hq | hq
        · exact h.filled q hq hf
        · rw [List.mem_singleton.1 hq] at hf; simp at hf
      · intro x rx hx hc
        rcases hback x rx hx with ⟨rfl, rfl⟩ | hx
        · simp only at hc; rw [hslot] at hc; simp at hc
        · exact h.pub x rx hx hc
      · intro g hg; exact hlive _ _ (h.hold g hg)
      · intro g hg; exact hlive _ _ (h.chk g hg)
  · simp at hr

theorem find_mem {l : List Pend} {id : DataId} {q : Pend} (h : l.find? (fun q => q.id = id) = some q) :
    q ∈ l ∧ q.id = id := by
  refine ⟨List.mem_of_find?_eq_some h, ?_⟩
  have := List.find?_some h
  simpa using this

theorem uniq_mem {l : List Pend} (hu : (l.map (·.id)).Nodup) {a b : Pend} (ha : a ∈ l) (hb : b ∈ l) (he : a.id = b.id) :
    a = b := by
  induction l with
  | nil => simp at ha
  | cons q t ih =>
    simp only [List.map_cons, List.nodup_cons, List.mem_map, not_exists, not_and] at hu
    rcases List.mem_cons.1 ha with ea | ha
    · rcases List.mem_cons.1 hb with eb | hb
      · rw [ea, eb]
      · exact absurd (by rw [← he, ea]) (hu.1 b hb)
    · rcases List.mem_cons.1 hb with eb | hb
      · exact absurd (by rw [he, eb]) (hu.1 a ha)
      · exact ih hu.2 ha hb

theorem markFilled_mem {l : List Pend} {id : DataId} {q : Pend} (h : q ∈ markFilled l id) :
    ∃ q0 ∈ l, q0.id = q.id ∧ q0.resv = q.resv ∧ q0.job = q.job ∧ (q.id ≠ id → q0 = q) := by
  obtain ⟨q0, h0, e⟩ := List.mem_map.1 h
  refine ⟨q0, h0, ?_⟩
  split at e
  · rename_i hid
    subst e
    exact ⟨rfl, rfl, rfl, fun hne => absurd hid hne⟩
  · subst e
    exact ⟨rfl, rfl, rfl, fun _ => rfl⟩

theorem markFilled_ids (l : List Pend) (id : DataId) : (markFilled l id).map (·.id) = l.map (·.id) := by
  unfold markFilled
  rw [List.map_map]
  apply List.map_congr_left
  intro q _
  simp only [Function.comp]
  split <;> rfl

/-- Filling a reservation with the bytes of its object. -/
theorem ninv_fill {memLen svcLen : Nat} {objs : DataId → Option Serialized} {n : Node} {q : Pend} {m : Mem}
    (h : NInv memLen svcLen objs n) (hq : q ∈ n.pend) (hframe : ∀ j, j < q.resv.first ∨ q.resv.last ≤ j → m j = n.mem j)
    (hfill : ∀ d, objs q.id = some d → ∀ s, SharedBuffer.read m q.resv.first (infoOf d s) = d) :
    NInv memLen svcLen objs { n with mem := m, pend := markFilled n.pend q.id } := by
  have hres := h.pendResv q hq
  have other : ∀ x rx, n.host.mgr.resv x = some rx → x ≠ q.id → ∀ d, objs x = some d → ∀ s,
      SharedBuffer.read n.mem rx.first (infoOf d s) = d → SharedBuffer.read m rx.first (infoOf d s) = d := by
    intro x rx hx hne d hd s hr
    refine read_keep hr ?_
    intro k h1 h2
    apply hframe
    obtain ⟨d', hd', hl⟩ := h.size x rx hx
    rw [hd] at hd'
    simp only [Option.some.injEq] at hd'
    subst hd'
    exact range_disj h.minv hx hres hne h1 (by omega)
  refine ⟨h.minv, ?_, ?_, ?_, ?_, h.ident, h.size, ?_, ?_, ?_, h.hold, h.chk⟩
  · intro g hg
    obtain ⟨g0, h0, e1, e2, -⟩ := markFilled_mem hg
    rw [← e1, ← e2]
    exact h.pendResv g0 h0
  · intro g hg
    obtain ⟨g0, h0, e1, e2, -⟩ := markFilled_mem hg
    rw [← e1, ← e2]
    exact h.pendNo g0 h0
  · simp only [markFilled_ids]
    exact h.pendUniq
  · intro x rx hx
    rcases h.cover x rx hx with ⟨g, hg, e⟩ | hc
    · have hm : x ∈ (markFilled n.pend q.id).map (·.id) := by
        rw [markFilled_ids]
        exact List.mem_map.2 ⟨g, hg, e⟩
      obtain ⟨g', hg', e'⟩ := List.mem_map.1 hm
      exact Or.inl ⟨g', hg', e'⟩
    · exact Or.inr hc
  · intro g hg d hj
    obtain ⟨g0, h0, e1, e2, e3, -⟩ := markFilled_mem hg
    rw [← e1]
    exact h.job g0 h0 d (by rw [e3]; exact hj)
  · intro g hg hf d hd s
    obtain ⟨g0, h0, e1, e2, e3, e4⟩ := markFilled_mem hg
    by_cases hid : g.id = q.id
    · have : g0 = q := uniq_mem h.pendUniq h0 hq (by rw [e1, hid])
      rw [← e2, this]
      exact hfill d (by rw [← hid]; exact hd) s
    · have := e4 hid
      subst this
      exact other g0.id g0.resv (h.pendResv g0 h0) hid d hd s (h.filled g0 h0 hf d hd s)
  · intro x rx hx hc
    obtain ⟨p1, p2, p3⟩ := h.pub x rx hx hc
    refine ⟨?_, p2, p3⟩
    intro d hd s
    refine other x rx hx ?_ d hd s (p1 d hd s)
    intro e
    rw [e, hres] at hx
    simp only [Option.some.injEq] at hx
    have := h.pendNo q hq
    rw [hx, ← e] at this
    simp only at hc
    rw [this] at hc
    simp at hc

theorem ninv_write {memLen svcLen : Nat} {objs : DataId → Option Serialized} {n n' : Node} {id : DataId}
    (h : NInv memLen svcLen objs n) (hw : n.write id = some n') : NInv memLen svcLen objs n' := by
  unfold Node.write at hw
  split at hw
  · rename_i p x r d hf
    obtain ⟨hm, hid⟩ := find_mem hf
    simp only at hid
    subst hid
    split at hw
    · rename_i i m hwr
      simp only [Option.some.injEq] at hw
      subst hw
      obtain ⟨w1, w2, -⟩ := write_spec n.mem r d
      rw [hwr] at w1 w2
      have hj := h.job _ hm d rfl
      refine ninv_fill h hm w1 ?_
      intro d' hd' s
      simp only at hj hd' ⊢
      rw [hj] at hd'
      simp only [Option.some.injEq] at hd'
      subst hd'
      obtain ⟨a, -, -⟩ := w2 i rfl
      have hi : i = infoOf d r.svc := by
        unfold SharedBuffer.write at hwr
        split at hwr
        · simp at hwr
        · simp only at hwr
          split at hwr
          · simp at hwr
          · simp only [Prod.mk.injEq, Option.some.injEq] at hwr
            rw [← hwr.1]; rfl
      rw [hi] at a
      exact a
    · simp at hw
  · simp only [Option.some.injEq] at hw; subst hw; exact h

theorem ninv_sync {memLen svcLen memLen' svcLen' : Nat} {objs : DataId → Option Serialized} {n o n' : Node} {id : DataId}
    (h : NInv memLen svcLen objs n) (ho : NInv memLen' svcLen' objs o) (hw : n.sync o id = some n') :
    NInv memLen svcLen objs n' := by
  unfold Node.sync at hw
  split at hw
  · rename_i p x r hf
    obtain ⟨hm, hid⟩ := find_mem hf
    simp only at hid
    subst hid
    split at hw
    · simp at hw
    · rename_i ro hro
      split at hw
      · rename_i hck
        simp only [Option.some.injEq] at hw
        subst hw
        obtain ⟨d, hd, hol⟩ := ho.size _ _ hro
        obtain ⟨d2, hd2, hll⟩ := h.size _ _ (h.pendResv _ hm)
        simp only at hd2 hll
        rw [hd] at hd2
        simp only [Option.some.injEq] at hd2
        subst hd2
        have hlen : ((slice o.mem ro.first ro.last).take (r.last - r.first)).length = dataSize d := by
          rw [List.length_take, slice_length]; omega
        refine ninv_fill h hm ?_ ?_
        · intro j hj
          simp only at hj
          unfold syncCopy
          apply writeAt_outside
          omega
        · intro d' hd' s
          simp only at hd' ⊢
          rw [hd] at hd'
          simp only [Option.some.injEq] at hd'
          subst hd'
          rw [read_shift (m' := o.mem) (b := ro.first)]
          · exact (ho.pub _ ro hro hck).1 d hd s
          · intro k hk
            rw [infoOf_size] at hk
            unfold syncCopy
            rw [writeAt_inside (by omega)]
            simp [slice]
      · simp only [Option.some.injEq] at hw; subst hw; exact h
  · simp only [Option.some.injEq] at hw; subst hw; exact h

theorem onlyCell_publish (w : Words) (id : DataId) (s f : Nat) : OnlyCell w (publishWords w id s f) s := by
  intro i hi
  unfold publishWords
  rw [upd_other _ _ (by omega), upd_other _ _ (by omega), upd_other _ _ (by omega), upd_other _ _ (by omega)]

theorem publish_words (w : Words) (id : DataId) (s f : Nat) :
    checkInfo (publishWords w id s f) id s = true ∧ publishWords w id s f (s + 2) = f ∧
      publishWords w id s f (s + 3) = 1 := by
  refine ⟨?_, ?_, ?_⟩
  · rw [checkInfo_iff]
    unfold publishWords
    refine ⟨by rw [upd_same], ?_⟩
    rw [upd_other _ _ (by omega), upd_same]
  · unfold publishWords
    rw [upd_other _ _ (by omega), upd_other _ _ (by omega), upd_other _ _ (by omega), upd_same]
  · unfold publishWords
    rw [upd_other _ _ (by omega), upd_other _ _ (by omega), upd_same]

theorem cnt_zero {l : List Hold} {id : DataId} (h : ∀ g ∈ l, g.id ≠ id) : cnt l id = 0 := by
  unfold cnt
  rw [List.countP_eq_zero]
  intro g hg
  simp [h g hg]

theorem ninv_publish {memLen svcLen : Nat} {objs : DataId → Option Serialized} {n : Node} {id : DataId}
    (h : NInv memLen svcLen objs n) : NInv memLen svcLen objs (n.publish id) := by
  unfold Node.publish
  split
  · rename_i p x r jb hf
    obtain ⟨hm, hid⟩ := find_mem hf
    simp only at hid
    subst hid
    have hres := h.pendResv _ hm
    have hno := h.pendNo _ hm
    simp only at hres hno
    have h4 := h.minv.slot _ _ hres
    have hoc := onlyCell_publish n.host.words x r.svc r.first
    obtain ⟨w1, w2, w3⟩ := publish_words n.host.words x r.svc r.first
    -- other reservations are in other cells
    have hcell : ∀ y ry, n.host.mgr.resv y = some ry → y ≠ x → ry.svc ≠ r.svc ∧ 4 ∣ ry.svc := by
      intro y ry hy hne
      exact ⟨fun e => hne (slot_inj h.minv hy hres e), h.minv.slot _ _ hy⟩
    have hck : ∀ y ry, n.host.mgr.resv y = some ry → y ≠ x →
        checkInfo (publishWords n.host.words x r.svc r.first) y ry.svc = checkInfo n.host.words y ry.svc := by
      intro y ry hy hne
      obtain ⟨a, b⟩ := hcell y ry hy hne
      exact onlyCell_check hoc h4 b a y
    have hnohold : ∀ l : List Hold, (∀ g ∈ l, Live n g.id g.svc) → ∀ g ∈ l, g.id ≠ x := by
      intro l hl g hg e
      obtain ⟨rg, a, b, c⟩ := hl g hg
      rw [e, hres] at a
      simp only [Option.some.injEq] at a
      rw [← b, ← a, e, hno] at c
      simp at c
    have hlive : ∀ y s, y ≠ x → Live n y s → ∃ ry, n.host.mgr.resv y = some ry ∧ ry.svc = s ∧
        checkInfo (publishWords n.host.words x r.svc r.first) y s = true := by
      rintro y s hne ⟨ry, a, b, c⟩
      refine ⟨ry, a, b, ?_⟩
      rw [← b, hck y ry a hne, b]
      exact c
    refine ⟨h.minv, ?_, ?_, ?_, ?_, ?_, h.size, ?_, ?_, ?_, ?_, ?_⟩
    · intro q hq
      exact h.pendResv q (List.mem_filter.1 hq).1
    · intro q hq
      obtain ⟨q1, q2⟩ := List.mem_filter.1 hq
      simp only [ne_eq, decide_not, Bool.not_eq_eq_eq_not, Bool.not_true, decide_eq_false_iff_not] at q2
      simp only
      rw [hck _ _ (h.pendResv q q1) q2]
      exact h.pendNo q q1
    · exact (h.pendUniq).sublist ((List.filter_sublist).map _)
    · intro y ry hy
      by_cases hyx : y = x
      · subst hyx
        simp only at hy
        rw [hres] at hy
        simp only [Option.some.injEq] at hy
        subst hy
        exact Or.inr w1
      · rcases h.cover y ry hy with ⟨q, hq, e⟩ | hc
        · exact Or.inl ⟨q, List.mem_filter.2 ⟨hq, by simp [e, hyx]⟩, e⟩
        · exact Or.inr (by simp only; rw [hck y ry hy hyx]; exact hc)
    · intro y s hs hc
      simp only at hc ⊢
      by_cases hsr : s = r.svc
      · subst hsr
        have := checkInfo_unique hc w1
        subst this
        exact ⟨r, hres, rfl⟩
      · rw [onlyCell_check hoc h4 hs hsr] at hc
        exact h.ident y s hs hc
    · intro q hq
      exact h.job q (List.mem_filter.1 hq).1
    · intro q hq
      exact h.filled q (List.mem_filter.1 hq).1
    · intro y ry hy hc
      simp only at hy hc ⊢
      by_cases hyx : y = x
      · subst hyx
        rw [hres] at hy
        simp only [Option.some.injEq] at hy
        subst hy
        refine ⟨fun d hd s => h.filled _ hm rfl d hd s, w2, ?_⟩
        rw [w3]
        have := cnt_zero (hnohold n.holders h.hold)
        unfold cnt at this ⊢
        rw [List.countP_cons]
        simp only [this]
        simp
      · rw [hck y ry hy hyx] at hc
        obtain ⟨p1, p2, p3⟩ := h.pub y ry hy hc
        obtain ⟨a, b⟩ := hcell y ry hy hyx
        refine ⟨p1, ?_, ?_⟩
        · rw [onlyCell_word hoc h4 b a (by omega)]; exact p2
        · rw [onlyCell_word hoc h4 b a (by omega), p3]
          unfold cnt
          rw [List.countP_cons]
          simp [Ne.symm (a := y) (b := x) hyx]
    · intro g hg
      rcases List.mem_cons.1 hg with rfl | hg
      · exact ⟨r, hres, rfl, w1⟩
      · exact hlive _ _ (hnohold _ h.hold g hg) (h.hold g hg)
    · intro g hg
      exact hlive _ _ (hnohold _ h.chk g hg) (h.chk g hg)
  · exact h

theorem addRef_check (w : Words) (s t : Nat) (n : Int) (id : DataId) (h4 : 4 ∣ s) (h4' : 4 ∣ t) :
    checkInfo (addRef w s n) id t = checkInfo w id t := by
  unfold checkInfo addRef
  rw [upd_other _ _ (by omega), upd_other _ _ (by omega)]

theorem addRef_first (w : Words) (s t : Nat) (n : Int) (h4 : 4 ∣ s) (h4' : 4 ∣ t) :
    addRef w s n (t + 2) = w (t + 2) := by
  unfold addRef
  rw [upd_other _ _ (by omega)]

theorem addRef_refs (w : Words) (s t : Nat) (n : Int) (h4 : 4 ∣ s) (h4' : 4 ∣ t) :
    addRef w s n (t + 3) = if t = s then w (s + 3) + n else w (t + 3) := by
  unfold addRef
  by_cases h : t = s
  · subst h; simp
  · rw [if_neg h, upd_other _ _ (by omega)]

/-- A change of the count of a complete object together with its registrations. -/
theorem ninv_count {memLen svcLen s : Nat} {objs : DataId → Option Serialized} {n : Node} {id : DataId} {k : Int}
    {hl cl : List Hold} (h : NInv memLen svcLen objs n) (hid : Live n id s)
    (hcount : ∀ y, (cnt hl y : Int) = cnt n.holders y + if y = id then k else 0)
    (hh : ∀ g ∈ hl, Live n g.id g.svc) (hc : ∀ g ∈ cl, Live n g.id g.svc) :
    NInv memLen svcLen objs
      ⟨⟨n.host.mgr, addRef n.host.words s k⟩, n.mem, n.pend, cl, hl, n.views⟩ := by
  obtain ⟨r, hr, rfl, hck⟩ := hid
  have h4 := h.minv.slot _ _ hr
  have hl2 : ∀ y t, Live n y t → ∃ ry, n.host.mgr.resv y = some ry ∧ ry.svc = t ∧
      checkInfo (addRef n.host.words r.svc k) y t = true := by
    rintro y t ⟨ry, a, b, c⟩
    refine ⟨ry, a, b, ?_⟩
    rw [addRef_check _ _ _ _ _ h4 (b ▸ h.minv.slot _ _ a)]
    exact c
  refine ⟨h.minv, h.pendResv, ?_, h.pendUniq, ?_, ?_, h.size, h.job, h.filled, ?_, ?_, ?_⟩
  · intro q hq
    simp only
    rw [addRef_check _ _ _ _ _ h4 (h.minv.slot _ _ (h.pendResv q hq))]
    exact h.pendNo q hq
  · intro y ry hy
    simp only
    rw [addRef_check _ _ _ _ _ h4 (h.minv.slot _ _ hy)]
    exact h.cover y ry hy
  · intro y t ht hc
    simp only at hc
    rw [addRef_check _ _ _ _ _ h4 ht] at hc
    exact h.ident y t ht hc
  · intro y ry hy hc
    simp only at hy hc ⊢
    have h4' := h.minv.slot _ _ hy
    rw [addRef_check _ _ _ _ _ h4 h4'] at hc
    obtain ⟨p1, p2, p3⟩ := h.pub y ry hy hc
    refine ⟨p1, ?_, ?_⟩
    · rw [addRef_first _ _ _ _ h4 h4']; exact p2
    · rw [addRef_refs _ _ _ _ h4 h4', hcount y]
      by_cases hyi : y = id
      · subst hyi
        rw [hr] at hy
        simp only [Option.some.injEq] at hy
        subst hy
        rw [if_pos rfl, if_pos rfl, p3]
      · rw [if_neg, if_neg hyi, p3]
        · omega
        · intro e
          exact hyi (slot_inj h.minv hy hr e)
  · intro g hg; exact hl2 _ _ (hh g hg)
  · intro g hg; exact hl2 _ _ (hc g hg)

theorem ninv_incr {memLen svcLen p s : Nat} {objs : DataId → Option Serialized} {n : Node} {id : DataId}
    (h : NInv memLen svcLen objs n) : NInv memLen svcLen objs (n.incr p id s) := by
  unfold Node.incr
  split
  · rename_i hm
    have hl := h.chk _ hm
    refine ninv_count h hl ?_ ?_ ?_
    · intro y
      unfold cnt
      rw [List.countP_cons]
      by_cases hy : y = id
      · subst hy; simp
      · simp [hy, Ne.symm (a := y) (b := id) hy]
    · intro g hg
      rcases List.mem_cons.1 hg with rfl | hg
      · exact hl
      · exact h.hold g hg
    · intro g hg
      exact h.chk g (List.mem_of_mem_erase hg)
  · exact h

theorem ninv_finalize {memLen svcLen p s : Nat} {objs : DataId → Option Serialized} {n : Node} {id : DataId}
    (h : NInv memLen svcLen objs n) : NInv memLen svcLen objs (n.finalize p id s) := by
  unfold Node.finalize
  split
  · rename_i hm
    have hl := h.hold _ hm
    have hc : checkInfo n.host.words id s = true := by
      obtain ⟨r, a, b, c⟩ := hl
      exact c
    unfold dropRef
    rw [if_pos hc]
    refine ninv_count h hl ?_ ?_ h.chk
    · intro y
      unfold cnt
      have := (List.perm_cons_erase hm).countP_eq (fun g : Hold => decide (g.id = y))
      rw [List.countP_cons] at this
      by_cases hy : y = id
      · subst hy
        simp only [if_true, decide_true] at this ⊢
        omega
      · simp only [hy, if_false, decide_eq_true_eq, Ne.symm (a := y) (b := id) hy] at this ⊢
        omega
    · intro g hg
      exact h.hold g (List.mem_of_mem_erase hg)
  · exact h

theorem ninv_check {memLen svcLen p q : Nat} {objs : DataId → Option Serialized} {n : Node} {id : DataId}
    (h : NInv memLen svcLen objs n) : NInv memLen svcLen objs (n.check p id (infoSize * q)) := by
  unfold Node.check
  split
  · rename_i hc
    obtain ⟨r, a, b⟩ := h.ident id (infoSize * q) (Nat.dvd_mul_right 4 q) hc
    refine ⟨h.minv, h.pendResv, h.pendNo, h.pendUniq, h.cover, h.ident, h.size, h.job, h.filled, h.pub, h.hold, ?_⟩
    intro g hg
    rcases List.mem_cons.1 hg with rfl | hg
    · exact ⟨r, a, b, hc⟩
    · exact h.chk g hg
  · exact h

theorem ninv_views {memLen svcLen : Nat} {objs : DataId → Option Serialized} {n : Node} {vs : List View}
    (h : NInv memLen svcLen objs n) : NInv memLen svcLen objs { n with views := vs } :=
  ⟨h.minv, h.pendResv, h.pendNo, h.pendUniq, h.cover, h.ident, h.size, h.job, h.filled, h.pub, h.hold, h.chk⟩

theorem ninv_init (memLen svcLen : Nat) : NInv memLen svcLen (fun _ => none) (Node.init memLen svcLen) where
  minv := minv_init memLen svcLen
  pendResv := by simp [Node.init]
  pendNo := by simp [Node.init]
  pendUniq := by simp [Node.init]
  cover := by simp [Node.init, Host.init, Mgr.init]
  ident := by
    intro id s _ hc
    rw [checkInfo_iff] at hc
    simp only [Node.init, Host.init] at hc
    omega
  size := by simp [Node.init, Host.init, Mgr.init]
  job := by simp [Node.init]
  filled := by simp [Node.init]
  pub := by simp [Node.init, Host.init, Mgr.init]
  hold := by simp [Node.init]
  chk := by simp [Node.init]

end Verif.SharedSystem
