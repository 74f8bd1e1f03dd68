import Verif.Model.Placement
import Verif.Props.SegmentSizes
import Mathlib.Data.List.Nodup

/-! Properties of the decision between the shared and the local store (C125). -/
namespace Verif.Props
open Verif.Shm Verif.Placement Verif.FreeMemory

/-- **C125**, full statement: exactly the objects above the threshold go into shared memory when there is any. -/
def C125_full : Prop :=
  ∀ (allocated : Bool) (threshold : Int) (o : Stored),
    shares allocated threshold o = true ↔ allocated = true ∧ threshold < ((o.sData + o.raws.sum : Nat) : Int)

/-- The code violates C125: `put` shares every object, here one of ten bytes. -/
theorem C125_put_violated : ¬ C125_full := by
  intro h
  have := (h true 100000 ⟨⟨0, 0⟩, .put, 10, []⟩).1 rfl
  simp at this

/-- `put` asks only whether there is a shared store. -/
theorem C125_put_partial (allocated : Bool) (threshold : Int) (o : Stored) (h : o.origin = .put) :
    shares allocated threshold o = true ↔ allocated = true := by
  simp [shares, h]

/-- **C125**, proved part: for values that are sent and for results of tasks and coroutines exactly those above the threshold go into
shared memory. Missing: `put`. -/
theorem C125_others_partial (allocated : Bool) (threshold : Int) (o : Stored) (h : o.origin ≠ .put) :
    shares allocated threshold o = true ↔ allocated = true ∧ threshold < ((o.sData + o.raws.sum : Nat) : Int) := by
  obtain ⟨id, origin, s, r⟩ := o
  cases origin with
  | put => exact absurd rfl h
  | sent => simp [shares, Config.shouldBeShared]
  | result => simp [shares, Config.shouldBeShared]

/-- What is left of a range of which the first part is taken. -/
private def rest (taken total : Nat) : Ranges := if taken = total then [] else [(taken, total)]

private theorem occupy_rest {taken total n : Nat} (hn : 1 ≤ n) :
    (taken + n ≤ total → occupy (rest taken total) n = (some (taken, taken + n), rest (taken + n) total)) ∧
    (total < taken + n → (occupy (rest taken total) n).1 = none) := by
  constructor
  · intro h
    have h1 : taken ≠ total := by omega
    simp only [rest, if_neg h1, occupy, if_pos h]
    by_cases h2 : total = taken + n
    · rw [if_pos h2, if_pos h2.symm]
    · rw [if_neg h2, if_neg (fun e => h2 e.symm)]
  · intro h
    by_cases h1 : taken = total
    · simp [rest, h1, occupy]
    · simp [rest, h1, occupy, Nat.not_le.2 h]

/-- The state of the manager after reservations of `bytes` bytes and `cells` cells. -/
private structure Packed (memLen svcLen bytes cells : Nat) (m : Mgr) : Prop where
  mem : m.mem = rest bytes memLen
  svc : m.svc = rest cells svcLen

private theorem storeOne_packed {memLen svcLen bytes cells : Nat} {m : Mgr} (hm : Packed memLen svcLen bytes cells m)
    {allocated : Bool} {threshold : Int} {o : Stored} (hs : shares allocated threshold o = true) (hnew : m.resv o.id = none)
    (hp : 1 ≤ o.size) (hb : bytes + o.size ≤ memLen) :
    (cells + 4 ≤ svcLen → ∃ m', storeOne allocated threshold m o = .ok m' ∧ Packed memLen svcLen (bytes + o.size) (cells + 4) m' ∧
      ∀ i, i ≠ o.id → m'.resv i = m.resv i) ∧
    (svcLen < cells + 4 → storeOne allocated threshold m o = .error .overflowService) := by
  have h1 := (occupy_rest (taken := bytes) (total := memLen) hp).1 hb
  constructor
  · intro hc
    have h2 := (occupy_rest (taken := cells) (total := svcLen) (n := 4) (by decide)).1 hc
    refine ⟨{ mem := rest (bytes + o.size) memLen, svc := rest (cells + 4) svcLen,
              resv := upd m.resv o.id (some ⟨bytes, bytes + o.size, cells⟩), pending := m.pending }, ?_, ⟨rfl, rfl⟩, ?_⟩
    · simp only [storeOne, if_pos hs, Mgr.reserve, Mgr.get, hnew, Mgr.put, hm.mem, hm.svc, h1, infoSize, h2]
    · intro i hi
      exact upd_other _ _ hi
  · intro hc
    have h2 := (occupy_rest (taken := cells) (total := svcLen) (n := 4) (by decide)).2 hc
    simp only [storeOne, if_pos hs, Mgr.reserve, Mgr.get, hnew, Mgr.put, hm.mem, hm.svc, h1, infoSize, h2]

private theorem storeAll_packed {allocated : Bool} {threshold : Int} {memLen svcLen : Nat} (l : List Stored)
    (hn : (l.map (·.id)).Nodup) (hpos : ∀ o ∈ l, 1 ≤ o.size) {m : Mgr} {bytes cells : Nat}
    (hm : Packed memLen svcLen bytes cells m) (hnew : ∀ o ∈ l, m.resv o.id = none)
    (hb : bytes + ((l.filter (shares allocated threshold)).map Stored.size).sum ≤ memLen) :
    (cells + 4 * (l.filter (shares allocated threshold)).length ≤ svcLen →
      ∃ m', storeAll allocated threshold m l = .ok m' ∧
        Packed memLen svcLen (bytes + ((l.filter (shares allocated threshold)).map Stored.size).sum)
          (cells + 4 * (l.filter (shares allocated threshold)).length) m') ∧
    (svcLen < cells + 4 * (l.filter (shares allocated threshold)).length → cells ≤ svcLen →
      storeAll allocated threshold m l = .error .overflowService) := by
  induction l generalizing m bytes cells with
  | nil =>
    constructor
    · intro _
      exact ⟨m, rfl, by simpa using hm⟩
    · intro h1 h2
      simp at h1
      omega
  | cons o l ih =>
    rw [List.map_cons, List.nodup_cons] at hn
    by_cases hs : shares allocated threshold o = true
    · rw [List.filter_cons_of_pos hs] at hb ⊢
      simp only [List.map_cons, List.sum_cons, List.length_cons] at hb ⊢
      obtain ⟨g1, g2⟩ := storeOne_packed hm hs (hnew o (by simp)) (hpos o (by simp)) (by omega)
      by_cases hc : cells + 4 ≤ svcLen
      · obtain ⟨m', e1, e2, e3⟩ := g1 hc
        have hnew' : ∀ o' ∈ l, m'.resv o'.id = none := by
          intro o' ho'
          rw [e3 _ (fun e => hn.1 (List.mem_map.2 ⟨o', ho', e⟩))]
          exact hnew o' (by simp [ho'])
        obtain ⟨i1, i2⟩ := ih hn.2 (fun o' h' => hpos o' (by simp [h'])) e2 hnew' (by omega)
        simp only [storeAll, e1]
        constructor
        · intro h
          obtain ⟨m'', f1, f2⟩ := i1 (by omega)
          refine ⟨m'', f1, ?_⟩
          have q1 : bytes + o.size + ((l.filter (shares allocated threshold)).map Stored.size).sum =
            bytes + (o.size + ((l.filter (shares allocated threshold)).map Stored.size).sum) := by omega
          have q2 : cells + 4 + 4 * (l.filter (shares allocated threshold)).length =
            cells + 4 * ((l.filter (shares allocated threshold)).length + 1) := by omega
          rw [q1, q2] at f2
          exact f2
        · intro h _
          exact i2 (by omega) hc
      · constructor
        · intro h; omega
        · intro _ _
          simp only [storeAll, g2 (by omega)]
    · rw [List.filter_cons_of_neg hs] at hb ⊢
      have : storeOne allocated threshold m o = .ok m := by simp only [storeOne, if_neg hs]
      simp only [storeAll, this]
      exact ih hn.2 (fun o' h' => hpos o' (by simp [h'])) hm (fun o' h' => hnew o' (by simp [h'])) hb

private theorem init_packed {x k : Nat} (hx : 1 ≤ x) (hk : 1 ≤ k) : Packed x (4 * k) 0 0 (Mgr.init x (4 * k)) :=
  ⟨by simp only [Mgr.init, FreeMemory.init, rest]; rw [if_neg (by omega)],
    by simp only [Mgr.init, FreeMemory.init, rest]; rw [if_neg (by omega)]⟩

/-- Without `put` the metadata suffice: with default sizes, new objects that are sent or returned never end the monitor as long as
those above the threshold fit into the object memory. -/
theorem C125_suffice_partial (c : SegmentSizes.Config) (avail x y : Int) (l : List Stored) (ha : 0 ≤ avail) (hmax : avail < 2 ^ 46)
    (hdef : c.objMem = none ∧ c.svcMem = none) (ht : c.threshold > 99 * 32) (h : SegmentSizes.allocate c avail = some (x, y))
    (hx : 1 ≤ x) (hy : 1 ≤ SegmentSizes.slots y) (hn : (l.map (·.id)).Nodup) (ho : ∀ o ∈ l, o.origin ≠ .put)
    (hfit : (((l.map fun o => o.sData + o.raws.sum).filter fun n : Nat => decide (c.threshold < (n : Int))).sum : Nat) ≤ x) :
    ∃ m, storeAll true c.threshold (Mgr.init x.toNat (4 * (SegmentSizes.slots y).toNat)) l = .ok m := by
  have hfilter : ∀ l : List Stored, (∀ o ∈ l, o.origin ≠ .put) →
      (l.filter (shares true c.threshold)).map Stored.size =
        (l.map fun o => o.sData + o.raws.sum).filter fun n : Nat => decide (c.threshold < (n : Int)) := by
    intro l ho
    induction l with
    | nil => rfl
    | cons o l ih =>
      have i := ih fun o' h' => ho o' (by simp [h'])
      have hq := C125_others_partial true c.threshold o (ho o (by simp))
      by_cases hs : shares true c.threshold o = true
      · rw [List.filter_cons_of_pos hs, List.map_cons, List.map_cons, List.filter_cons_of_pos (by simpa using (hq.1 hs).2), i]
        rfl
      · rw [List.filter_cons_of_neg hs, List.map_cons,
          List.filter_cons_of_neg (by intro e; exact hs (hq.2 ⟨rfl, by simpa using e⟩)), i]
  have hbig : ∀ n ∈ ((l.filter (shares true c.threshold)).map Stored.size).map (fun n : Nat => (n : Int)), c.threshold < n := by
    intro n hm
    rw [hfilter l ho] at hm
    obtain ⟨k, hk, rfl⟩ := List.mem_map.1 hm
    simpa using (List.mem_filter.1 hk).2
  have hcast : ∀ l : List Nat, (l.map (fun n : Nat => (n : Int))).sum = ((l.sum : Nat) : Int) := by
    intro l
    induction l with
    | nil => rfl
    | cons a l ih => simp only [List.map_cons, List.sum_cons, ih]; push_cast; rfl
  have hs := C13_slots_suffice c avail x y (((l.filter (shares true c.threshold)).map Stored.size).map (fun n : Nat => (n : Int)))
    ha hmax hdef ht h hbig (by rw [hcast, hfilter l ho]; exact hfit)
  simp only [List.length_map] at hs
  -- objects that are not shared may be empty, so only the shared ones are counted
  have hreduce : ∀ (l : List Stored) (m : Mgr), storeAll true c.threshold m l =
      storeAll true c.threshold m (l.filter (shares true c.threshold)) := by
    intro l
    induction l with
    | nil => intro m; rfl
    | cons o l ih =>
      intro m
      by_cases hs : shares true c.threshold o = true
      · rw [List.filter_cons_of_pos hs]
        simp only [storeAll]
        split
        · exact ih _
        · rfl
      · rw [List.filter_cons_of_neg hs]
        have : storeOne true c.threshold m o = .ok m := by simp only [storeOne, if_neg hs]
        simp only [storeAll, this]
        exact ih m
  rw [hreduce]
  have hff : (l.filter (shares true c.threshold)).filter (shares true c.threshold) = l.filter (shares true c.threshold) := by
    simp
  have := (storeAll_packed (allocated := true) (threshold := c.threshold) (l.filter (shares true c.threshold))
    (hn.sublist (List.filter_sublist.map _))
    (by
      intro o hm
      have h1 := List.mem_filter.1 hm
      have h2 := ((C125_others_partial true c.threshold o (ho o h1.1)).1 h1.2).2
      simp only [Stored.size]
      omega)
    (init_packed (x := x.toNat) (k := (SegmentSizes.slots y).toNat) (by omega) (by omega)) (fun _ _ => rfl)
    (by rw [hff, hfilter l ho]; omega)).1 (by rw [hff]; omega)
  obtain ⟨m, h1, -⟩ := this
  exact ⟨m, h1⟩

/-- With `put` they do not: for every size of the object memory and every number of metadata records, one `put` more than there are
records, of objects of one byte, ends the monitor, although their bytes would fit. -/
theorem C125_exhausted_violated (memLen records : Nat) (threshold : Int) (hr : 1 ≤ records) (hfit : records + 1 ≤ memLen) :
    storeAll true threshold (Mgr.init memLen (4 * records)) ((List.range (records + 1)).map fun i => ⟨⟨0, i⟩, .put, 1, []⟩) =
      .error .overflowService := by
  have hall : ((List.range (records + 1)).map fun i => (⟨⟨0, i⟩, .put, 1, []⟩ : Stored)).filter (shares true threshold) =
      (List.range (records + 1)).map fun i => (⟨⟨0, i⟩, .put, 1, []⟩ : Stored) := by
    rw [List.filter_eq_self]
    intro o ho
    obtain ⟨i, -, rfl⟩ := List.mem_map.1 ho
    rfl
  have hsum : ∀ n : Nat, (((List.range n).map fun i => (⟨⟨0, i⟩, .put, 1, []⟩ : Stored)).map Stored.size).sum = n := by
    intro n
    induction n with
    | zero => rfl
    | succ n ih =>
      rw [List.range_succ, List.map_append, List.map_append, List.sum_append, ih]
      rfl
  refine (storeAll_packed _ ?_ ?_ (init_packed (by omega) hr) (fun _ _ => rfl) ?_).2 ?_ (by omega)
  · rw [List.map_map]
    refine List.Nodup.map ?_ List.nodup_range
    intro a b e
    simpa using e
  · intro o ho
    obtain ⟨i, -, rfl⟩ := List.mem_map.1 ho
    exact Nat.le_refl 1
  · rw [hall, hsum]; omega
  · rw [hall]; simp

/-- With 10⁹ bytes of free memory and the default configuration there are 9496 records, so that the 9497th small `put` ends the monitor. -/
theorem C125_default_violated : SegmentSizes.start ⟨none, none, 100000⟩ 1000000000 = .running 949696097 303902 ∧
    SegmentSizes.slots 303902 = 9496 ∧
    storeAll true 100000 (Mgr.init 949696097 (4 * 9496)) ((List.range 9497).map fun i => ⟨⟨0, i⟩, .put, 1, []⟩) =
      .error .overflowService :=
  ⟨by decide +kernel, by decide +kernel, C125_exhausted_violated 949696097 9496 100000 (by decide) (by decide)⟩

-- a result of 200000 bytes is shared, one of 100 is not
example : (storeAll true 100000 (Mgr.init 1000000 8) [⟨⟨2, 0⟩, .result, 100, [199900]⟩, ⟨⟨2, 1⟩, .result, 100, []⟩]).toOption.map
    (fun m => (m.mem, m.svc)) = some ([(200000, 1000000)], [(4, 8)]) := by decide
example : shares true 100000 ⟨⟨2, 0⟩, .sent, 40000, [60000]⟩ = false := by decide
example : shares false 100000 ⟨⟨2, 0⟩, .put, 40000, [600000]⟩ = false := by decide

end Verif.Props
