import Verif.Lemmas.ShmLog
import Verif.Lemmas.ShmSystem

/-! Properties C01 (manager level), C03-C07: the shared memory manager of the monitors. -/
namespace Verif.Props
open Verif.Shm Verif.FreeMemory Verif.Spec

/-- C01 at the level of objects: after any history of reservation requests, cleanups (with any result of the
collective) and arbitrary writes to the metadata words, the byte ranges of two different objects are
disjoint and inside the segment. Requests are for at least one byte (a serialized body is never empty). -/
theorem C01_object_ranges_disjoint (memLen svcLen : Nat) (ops : List HostOp) (h : Host) (ev : List Event)
    (hpos : Positive ops) (hr : (Host.init memLen svcLen).run ops = some (h, ev)) :
    (∀ id r, h.mgr.get id = some r → r.first ≤ r.last ∧ r.last ≤ memLen) ∧
    (∀ i j r q, i ≠ j → h.mgr.get i = some r → h.mgr.get j = some q →
      DisjointRanges (r.first, r.last) (q.first, q.last)) := by
  have hi := minv_run ops hpos (minv_init memLen svcLen) hr
  refine ⟨?_, ?_⟩
  · intro id r hg
    have := hi.mem.within id (r.first, r.last) (by simp only [Mgr.get] at hg; simp [memLive, hg])
    exact ⟨by have := this.1; simp at this; omega, this.2⟩
  · intro i j r q hij h1 h2
    simp only [Mgr.get] at h1 h2
    exact hi.mem.disj i j _ _ hij (by simp [memLive, h1]) (by simp [memLive, h2])

/-- C03: metadata slots are aligned, inside the metadata area and disjoint. -/
theorem C03_metadata_slots_disjoint (memLen svcLen : Nat) (ops : List HostOp) (h : Host) (ev : List Event)
    (hpos : Positive ops) (hr : (Host.init memLen svcLen).run ops = some (h, ev)) :
    (∀ id r, h.mgr.get id = some r → r.svc % 4 = 0 ∧ r.svc + 4 ≤ svcLen) ∧
    (∀ i j r q, i ≠ j → h.mgr.get i = some r → h.mgr.get j = some q →
      r.svc + 4 ≤ q.svc ∨ q.svc + 4 ≤ r.svc) := by
  have hi := minv_run ops hpos (minv_init memLen svcLen) hr
  refine ⟨?_, ?_⟩
  · intro id r hg
    simp only [Mgr.get] at hg
    have h1 := hi.svc.within id (r.svc, r.svc + infoSize) (by simp [svcLive, hg])
    have h2 := hi.slot id r hg
    exact ⟨Nat.mod_eq_zero_of_dvd h2, h1.2⟩
  · intro i j r q hij h1 h2
    simp only [Mgr.get] at h1 h2
    have := hi.svc.disj i j _ _ hij (by simp [svcLive, h1]; rfl) (by simp [svcLive, h2]; rfl)
    have a := this r.svc
    have b := this q.svc
    simp [infoSize] at a b
    omega

/-- Three ids, two slots of metadata reused after a cleanup. -/
example : Positive [.reserve ⟨0, 1⟩ 5, .reserve ⟨0, 2⟩ 5, .poke 0 0, .poke 1 1, .clear [⟨0, 1⟩] [0], .reserve ⟨0, 3⟩ 3] ∧
    ((Host.init 10 8).run [.reserve ⟨0, 1⟩ 5, .reserve ⟨0, 2⟩ 5, .poke 0 0, .poke 1 1,
      .clear [⟨0, 1⟩] [0], .reserve ⟨0, 3⟩ 3]).map (·.2) =
      some [.reserved ⟨0, 1⟩ ⟨0, 5, 0⟩ true, .reserved ⟨0, 2⟩ ⟨5, 10, 4⟩ true, .freed ⟨0, 1⟩,
        .reserved ⟨0, 3⟩ ⟨0, 3, 0⟩ true] := by
  constructor
  · intro id n h; simp at h; omega
  · rfl

/-- C04, full statement: a refused reservation leaves every later reservation as (un)successful as it would
have been without the refused one. -/
def C04_full : Prop :=
  ∀ (memLen svcLen : Nat) (ops : List HostOp) (h : Host) (ev : List Event) (id : DataId) (n : Nat) (e : Err)
    (m' : Mgr), Positive ops → 1 ≤ n → (Host.init memLen svcLen).run ops = some (h, ev) →
    h.mgr.reserve id n = (.error e, m') →
    ∀ id2 k, 1 ≤ k → ((m'.reserve id2 k).1.isOk = (h.mgr.reserve id2 k).1.isOk)

/-- The code violates C04: an object that is too big for the memory consumes the last metadata slot. -/
theorem C04_violated : ¬ C04_full := by
  intro h
  have := h 10 4 [] (Host.init 10 4) [] ⟨0, 1⟩ 11 .overflowMemory
    { Mgr.init 10 4 with svc := [] } (by simp [Positive]) (by decide) rfl rfl ⟨0, 2⟩ 5 (by decide)
  revert this
  decide

/-- Second witness, for the other resource: without a free metadata slot the memory of the refused object is lost. -/
theorem C04_memory_lost_violated : ∃ (m m' : Mgr) (id : DataId),
    m.put id 7 = (.error .overflowService, m') ∧ (∃ p, (occupy m.mem 7).1 = some p) ∧
    (occupy m'.mem 1).1 = none :=
  ⟨{ Mgr.init 7 0 with svc := [] }, { Mgr.init 7 0 with svc := [], mem := [] }, ⟨0, 1⟩, rfl, ⟨(0, 7), rfl⟩, rfl⟩

/-- C04, proved part: a refusal for lack of memory leaves the memory as it was, a refusal for lack of a slot leaves
the metadata area as it was, no reservation appears, and if neither resource was available nothing changes at all.
Missing: the other resource is consumed when only one is exhausted (see `C04_violated`). -/
theorem C04_refused_put_partial (m m' : Mgr) (id : DataId) (n : Nat) (e : Err)
    (h : m.put id n = (.error e, m')) :
    m'.resv = m.resv ∧ m'.pending = m.pending ∧
    (e = .overflowMemory → m'.mem = m.mem) ∧ (e = .overflowService → m'.svc = m.svc) ∧
    ((occupy m.mem n).1 = none → (occupy m.svc 4).1 = none → m' = m) := by
  unfold Mgr.put at h
  simp only at h
  generalize ho : occupy m.mem n = o at h
  generalize hq : occupy m.svc infoSize = q at h
  obtain ⟨o1, o2⟩ := o
  obtain ⟨q1, q2⟩ := q
  have hq' : occupy m.svc 4 = (q1, q2) := hq
  cases o1 with
  | none =>
    simp only [Prod.mk.injEq, Except.error.injEq] at h
    obtain ⟨rfl, rfl⟩ := h
    have e1 := occupy_good_none ho
    subst e1
    refine ⟨rfl, rfl, fun _ => rfl, by simp, ?_⟩
    intro _ h2
    rw [hq'] at h2
    simp only at h2
    subst h2
    rw [occupy_good_none hq']
  | some p =>
    cases q1 with
    | none =>
      simp only [Prod.mk.injEq, Except.error.injEq] at h
      obtain ⟨rfl, rfl⟩ := h
      exact ⟨rfl, rfl, by simp, fun _ => occupy_good_none hq, by simp⟩
    | some p2 => simp at h

/-- A free range of at least `n` cells. -/
def FreeRange (r : Ranges) (n : Nat) : Prop := ∃ p ∈ r, p.1 + n ≤ p.2

/-- The number of free cells. -/
def freeTotal (r : Ranges) : Nat := (r.map fun p => p.2 - p.1).sum

theorem occupy_total : ∀ (r : Ranges) (n : Nat),
    ((occupy r n).1 = none ↔ ¬ FreeRange r n) ∧ ((occupy r n).1 = none → (occupy r n).2 = r) ∧
      ((occupy r n).1 ≠ none → freeTotal (occupy r n).2 + n = freeTotal r)
  | [], n => by simp [occupy, FreeRange, freeTotal]
  | (lo, hi) :: tl, n => by
    obtain ⟨h1, h2, h3⟩ := occupy_total tl n
    have hfr : FreeRange ((lo, hi) :: tl) n ↔ lo + n ≤ hi ∨ FreeRange tl n := by simp [FreeRange]
    simp only [occupy]
    split
    · rename_i hle
      split
      · rename_i he
        refine ⟨by simp [hfr, hle], by simp, fun _ => ?_⟩
        simp only [freeTotal, List.map_cons, List.sum_cons]; omega
      · refine ⟨by simp [hfr, hle], by simp, fun _ => ?_⟩
        simp only [freeTotal, List.map_cons, List.sum_cons]; omega
    · rename_i hle
      refine ⟨by simp only [hfr, h1]; simp [hle], fun h => by simp only; rw [h2 h], fun h => ?_⟩
      have := h3 h
      simp only [freeTotal, List.map_cons, List.sum_cons] at this ⊢; omega

/-- C04, exactly what is lost: a refused object of `n` bytes costs `n` bytes of memory if they were there (there was no slot), and one slot of four
cells if there was one (there was no memory). Nothing changes if and only if neither was available. -/
theorem C04_lost_partial (m m' : Mgr) (id : DataId) (n : Nat) (e : Err) (hn : 1 ≤ n) (h : m.put id n = (.error e, m')) :
    (FreeRange m.mem n → freeTotal m'.mem + n = freeTotal m.mem) ∧ (¬ FreeRange m.mem n → m'.mem = m.mem) ∧
    (FreeRange m.svc 4 → freeTotal m'.svc + 4 = freeTotal m.svc) ∧ (¬ FreeRange m.svc 4 → m'.svc = m.svc) ∧
    ¬ (FreeRange m.mem n ∧ FreeRange m.svc 4) ∧ (m' = m ↔ ¬ FreeRange m.mem n ∧ ¬ FreeRange m.svc 4) := by
  obtain ⟨a1, a2, a3⟩ := occupy_total m.mem n
  obtain ⟨b1, b2, b3⟩ := occupy_total m.svc 4
  have hm : m' = { m with mem := (occupy m.mem n).2, svc := (occupy m.svc 4).2 } := by
    simp only [Mgr.put, infoSize] at h
    split at h
    · cases h; rfl
    · split at h <;> cases h; rfl
  have hnot : ¬ (FreeRange m.mem n ∧ FreeRange m.svc 4) := by
    rintro ⟨h1, h2⟩
    have c1 : (occupy m.mem n).1 ≠ none := fun hc => a1.1 hc h1
    have c2 : (occupy m.svc 4).1 ≠ none := fun hc => b1.1 hc h2
    simp only [Mgr.put, infoSize] at h
    split at h
    · rename_i hc; exact c1 hc
    · split at h
      · rename_i hc; exact c2 hc
      · cases h
  have e1 : FreeRange m.mem n → freeTotal m'.mem + n = freeTotal m.mem := fun hf => by
    rw [hm]; exact a3 fun hc => a1.1 hc hf
  have e2 : FreeRange m.svc 4 → freeTotal m'.svc + 4 = freeTotal m.svc := fun hf => by
    rw [hm]; exact b3 fun hc => b1.1 hc hf
  refine ⟨e1, fun hf => by rw [hm]; exact a2 (a1.2 hf), e2, fun hf => by rw [hm]; exact b2 (b1.2 hf), hnot, fun he => ⟨fun hf => ?_, fun hf => ?_⟩,
    fun ⟨h1, h2⟩ => ?_⟩
  · have := e1 hf; rw [he] at this; omega
  · have := e2 hf; rw [he] at this; omega
  · rw [hm, a2 (a1.2 h1), b2 (b1.2 h2)]

example : ((Mgr.init 10 4).put ⟨0, 1⟩ 11).2.svc = [] ∧ ((Mgr.init 10 3).put ⟨0, 1⟩ 7).2.mem = [(7, 10)] := by decide

example : (Mgr.init 10 4).put ⟨0, 1⟩ 11 = (.error .overflowMemory, { Mgr.init 10 4 with svc := [] }) := rfl

/-- C05: every history of one host produces a legal log: a request is told "first" exactly if the object has no
reservation, and otherwise gets the reservation that is in force. -/
theorem C05_reservations_idempotent (memLen svcLen : Nat) (ops : List HostOp) (h : Host) (ev : List Event)
    (hr : (Host.init memLen svcLen).run ops = some (h, ev)) : LegalLog (fun _ => none) ev :=
  run_log ops hr

/-- A log with two requests for the same object, a cleanup and a new first request. -/
example : ((Host.init 10 8).run [.reserve ⟨1, 1⟩ 5, .reserve ⟨1, 1⟩ 5, .poke 0 1, .poke 1 1,
      .clear [⟨1, 1⟩] [0], .reserve ⟨1, 1⟩ 4]).map (·.2) =
    some [.reserved ⟨1, 1⟩ ⟨0, 5, 0⟩ true, .reserved ⟨1, 1⟩ ⟨0, 5, 0⟩ false, .freed ⟨1, 1⟩,
      .reserved ⟨1, 1⟩ ⟨0, 4, 0⟩ true] := rfl

/-- C06: in a system of hosts whose monitors process the same cleanup lists in the same order, after any history a
cleanup round reclaims a reservation only if no host refers to the object; a listed object that is referred to
somewhere keeps its reservation and is kept for the next round on every host; every other listed object is gone. -/
theorem C06_reclaim_only_unreferenced (sizes : List (Nat × Nat)) (ops : List SysOp) (hs hs' : List Host)
    (l : List DataId) (hr : sysRun (sizes.map fun s => Host.init s.1 s.2) ops = some hs)
    (hc : clearAll hs l = some hs') :
    hs'.length = hs.length ∧
    ∀ (i : Nat) (h h' : Host), hs[i]? = some h → hs'[i]? = some h' → ∀ id,
      (∀ r, h.mgr.get id = some r → h'.mgr.get id = none → ∀ g ∈ hs, ¬ HostRefers g id) ∧
      ((∃ g ∈ hs, HostRefers g id) → h'.mgr.get id = h.mgr.get id) ∧
      (id ∈ h.mgr.pending ∨ id ∈ l →
        ((∃ g ∈ hs, HostRefers g id) → id ∈ h'.mgr.pending) ∧
        ((∀ g ∈ hs, ¬ HostRefers g id) → h'.mgr.get id = none ∧ id ∉ h'.mgr.pending)) := by
  have hp : SamePending hs := samePending_sysRun ops
    ⟨[], by intro h hm; obtain ⟨s, -, rfl⟩ := List.mem_map.1 hm; rfl⟩ hr
  obtain ⟨L, hL⟩ := hp
  obtain ⟨h1, h2⟩ := clearAll_effect hL hc
  refine ⟨h1, ?_⟩
  intro i h h' hi hi' id
  obtain ⟨r1, r2⟩ := h2 i h h' hi hi'
  have hz : gmax hs id = 0 ↔ ∀ g ∈ hs, ¬ HostRefers g id := by
    rw [gmax_zero]
    exact forall_congr' fun g => imp_congr_right fun _ => hasRef_zero
  have hex : (∃ g ∈ hs, HostRefers g id) → gmax hs id ≠ 0 := by
    rintro ⟨g, g1, g2⟩ h0
    exact hz.1 h0 g g1 g2
  have hpend : h.mgr.pending = L := hL h (List.mem_of_getElem? hi)
  simp only [Mgr.get]
  refine ⟨?_, ?_, ?_⟩
  · intro r hr0 hn
    rw [r1 id] at hn
    split at hn
    · rename_i hh; exact hz.1 hh.2
    · rw [hr0] at hn; simp at hn
  · intro he
    rw [r1 id, if_neg]
    rintro ⟨-, h0⟩
    exact hex he h0
  · intro hm
    have hm' : id ∈ L ++ l := by rw [List.mem_append, ← hpend]; exact hm
    refine ⟨?_, ?_⟩
    · intro he
      rw [r2, List.mem_filter]
      exact ⟨hm', by simpa using hex he⟩
    · intro hno
      have h0 := hz.2 hno
      refine ⟨by rw [r1 id, if_pos ⟨hm', h0⟩], ?_⟩
      rw [r2, List.mem_filter]
      simp [h0]

/-- Two hosts; object (0,1) is reserved on both and referenced on the second only, so it is kept; after the second
host's count drops to 0 it is reclaimed in a later round, although that round's list does not mention it. -/
example : (sysRun [Host.init 10 8, Host.init 10 8]
      [.reserve 0 ⟨0, 1⟩ 5, .reserve 1 ⟨0, 1⟩ 5, .poke 0 0 0, .poke 0 1 1, .poke 0 3 0, .poke 1 0 0, .poke 1 1 1,
       .poke 1 3 1, .cleanup [⟨0, 1⟩]]).map (·.map fun h => (h.mgr.get ⟨0, 1⟩, h.mgr.pending)) =
      some [(some ⟨0, 5, 0⟩, [⟨0, 1⟩]), (some ⟨0, 5, 0⟩, [⟨0, 1⟩])] ∧
    (sysRun [Host.init 10 8, Host.init 10 8]
      [.reserve 0 ⟨0, 1⟩ 5, .reserve 1 ⟨0, 1⟩ 5, .poke 0 0 0, .poke 0 1 1, .poke 0 3 0, .poke 1 0 0, .poke 1 1 1,
       .poke 1 3 1, .cleanup [⟨0, 1⟩], .poke 1 3 0, .cleanup []]).map
        (·.map fun h => (h.mgr.get ⟨0, 1⟩, h.mgr.pending)) = some [(none, []), (none, [])] := by
  constructor <;> rfl

/-- Hosts agree: two hosts that both hold an object before the rounds either both hold it afterwards or both
reclaimed it. -/
def SameDecision (hs hs' : List Host) : Prop :=
  ∀ (i j : Nat) (h g h' g' : Host) (id : DataId), hs[i]? = some h → hs[j]? = some g → hs'[i]? = some h' →
    hs'[j]? = some g' → h.mgr.get id ≠ none → g.mgr.get id ≠ none →
    (h'.mgr.get id = none ↔ g'.mgr.get id = none)

/-- C07, full statement: whatever the orders in which the same cleanup lists are delivered to the hosts, the hosts
agree. -/
def C07_full : Prop :=
  ∀ (hs : List (Host × List (List DataId))) (n : Nat) (hs' : List Host),
    (∀ p ∈ hs, ∀ q ∈ hs, p.2.Perm q.2) → (∀ p ∈ hs, p.2.length = n ∧ p.1.mgr.pending = []) →
    runQueues n hs = some hs' → SameDecision (hs.map (·.1)) hs'

/-- Host A of the witness: objects x = (0,1) and y = (1,1) stored, no references to either. -/
def c07A : Host :=
  { mgr := { Mgr.init 10 8 with
      mem := [], svc := [],
      resv := fun id => if id = ⟨0, 1⟩ then some ⟨0, 5, 0⟩ else if id = ⟨1, 1⟩ then some ⟨5, 10, 4⟩ else none }
    words := fun i => [0, 1, 0, 0, 1, 1, 5, 0].getD i (-1) }

/-- Host B of the witness: the same objects, x referenced, y not. -/
def c07B : Host := { c07A with words := fun i => [0, 1, 0, 1, 1, 1, 5, 0].getD i (-1) }

/-- The cleanup requests [x] and [y] of two processes, delivered in opposite orders to the two hosts. -/
def c07Queues : List (Host × List (List DataId)) :=
  [(c07A, [[⟨0, 1⟩], [⟨1, 1⟩]]), (c07B, [[⟨1, 1⟩], [⟨0, 1⟩]])]

theorem c07_result : ∃ a b : Host, runQueues 2 c07Queues = some [a, b] ∧
    a.mgr.get ⟨0, 1⟩ = none ∧ b.mgr.get ⟨0, 1⟩ = some ⟨0, 5, 0⟩ := ⟨_, _, rfl, rfl, rfl⟩

/-- The code violates C07: the collective pairs x on A with y on B; A frees x and B keeps it. -/
theorem C07_violated : ¬ C07_full := by
  intro h
  obtain ⟨a, b, hrq, ha, hb⟩ := c07_result
  have := h c07Queues 2 [a, b]
    (by
      intro p hp q hq
      simp only [c07Queues, List.mem_cons, List.not_mem_nil, or_false] at hp hq
      rcases hp with rfl | rfl <;> rcases hq with rfl | rfl <;> decide)
    (by
      intro p hp
      simp only [c07Queues, List.mem_cons, List.not_mem_nil, or_false] at hp
      rcases hp with rfl | rfl <;> exact ⟨rfl, rfl⟩)
    hrq 0 1 c07A c07B a b ⟨0, 1⟩ rfl rfl rfl rfl (by simp [Mgr.get, c07A]) (by simp [Mgr.get, c07A, c07B])
  rw [ha, hb] at this
  simp at this

/-- Consequence of the disagreement: A frees x although B has a positive reference count for it all the time. -/
theorem C07_referenced_object_freed_violated : ∃ a b : Host, runQueues 2 c07Queues = some [a, b] ∧
    HostRefers c07B ⟨0, 1⟩ ∧ HostRefers b ⟨0, 1⟩ ∧ c07A.mgr.get ⟨0, 1⟩ ≠ none ∧ a.mgr.get ⟨0, 1⟩ = none :=
  ⟨_, _, rfl, ⟨⟨0, 5, 0⟩, rfl, rfl, rfl, by decide⟩, ⟨⟨0, 5, 0⟩, rfl, rfl, rfl, by decide⟩,
    by simp [Mgr.get, c07A], rfl⟩

/-- C07, proved part: if the lists are delivered in the same order to all hosts, the hosts agree after any number of
rounds. Missing: different delivery orders (see `C07_violated`). -/
theorem C07_same_order_partial (hs hs' : List Host) (ls : List (List DataId))
    (hp : ∀ h ∈ hs, h.mgr.pending = [])
    (hr : runQueues ls.length (hs.map fun h => (h, ls)) = some hs') : SameDecision hs hs' := by
  obtain ⟨-, D, hD⟩ := runQueues_same ls ⟨[], hp⟩ hr
  intro i j h g h' g' id hi hj hi' hj' n1 n2
  have a := hD i h h' hi hi' id
  have b := hD j g g' hj hj' id
  simp only [Mgr.get] at *
  by_cases d : D id
  · rw [a.1 d, b.1 d]
  · rw [a.2 d, b.2 d]
    simp [n1, n2]

/-- The same two requests in the same order: both hosts keep x and free y. -/
example : ∃ a b : Host, runQueues 2 ([c07A, c07B].map fun h => (h, [[⟨0, 1⟩], [⟨1, 1⟩]])) = some [a, b] ∧
    (∀ h ∈ [c07A, c07B], h.mgr.pending = []) ∧
    a.mgr.get ⟨0, 1⟩ = some ⟨0, 5, 0⟩ ∧ b.mgr.get ⟨0, 1⟩ = some ⟨0, 5, 0⟩ ∧
    a.mgr.get ⟨1, 1⟩ = none ∧ b.mgr.get ⟨1, 1⟩ = none :=
  ⟨_, _, rfl, by intro h hh; simp only [List.mem_cons, List.not_mem_nil, or_false] at hh; rcases hh with rfl | rfl <;> rfl,
    rfl, rfl, rfl, rfl⟩

end Verif.Props
