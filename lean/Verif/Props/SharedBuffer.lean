import Verif.Lemmas.SharedBuffer

/-! Properties C08 and C09: contents of shared memory. -/
namespace Verif.Props
open Verif.SharedBuffer Verif.Shm

/-- C08: reading right after writing gives the same body, raw buffers and counts, and no byte outside the reserved
range changes. -/
theorem C08_write_read_roundtrip (m : Mem) (r : Resv) (d : Serialized) (info : SharedInfo) (m' : Mem)
    (h : write m r d = (some info, m')) :
    read m' r.first info = d ∧ info.svc = r.svc ∧ ∀ j, j < r.first ∨ r.last ≤ j → m' j = m j := by
  obtain ⟨h1, h2, -⟩ := write_spec m r d
  rw [h] at h1 h2
  obtain ⟨a, b, -⟩ := h2 info rfl
  exact ⟨a, b, h1⟩

/-- C08 over time: writes of any other objects into disjoint reservations (successful or not) do not change what is
read. -/
theorem C08_stable_under_other_writes (m : Mem) (r : Resv) (d : Serialized) (info : SharedInfo) (m' : Mem)
    (ws : List (Resv × Serialized)) (h : write m r d = (some info, m'))
    (hd : ∀ w ∈ ws, w.1.last ≤ r.first ∨ r.last ≤ w.1.first) :
    read (writes m' ws) r.first info = d := by
  obtain ⟨h1, h2, h3⟩ := write_spec m r d
  rw [h] at h1 h2 h3
  obtain ⟨a, b, c⟩ := h2 info rfl
  have hfit := h3.1 rfl
  rw [← a]
  apply read_congr
  intro k hk1 hk2
  apply writes_frame
  intro w hw
  have := hd w hw
  omega

/-- C08 across hosts: after the bytes of the owner's reservation have been copied into a reservation of the same size on
another host, reading there gives the same object, and nothing else changes on that host. -/
theorem C08_other_host_roundtrip (m : Mem) (r : Resv) (d : Serialized) (info : SharedInfo) (m' : Mem)
    (loc : Mem) (lr : Resv) (h : write m r d = (some info, m'))
    (hr : r.last = r.first + dataSize d) (hl : lr.last = lr.first + infoDataSize info) :
    read (syncCopy loc lr m' r) lr.first info = d ∧
    ∀ j, j < lr.first ∨ lr.last ≤ j → syncCopy loc lr m' r j = loc j := by
  obtain ⟨h1, h2, h3⟩ := write_spec m r d
  rw [h] at h1 h2 h3
  obtain ⟨a, b, c⟩ := h2 info rfl
  have hlen : ((slice m' r.first r.last).take (lr.last - lr.first)).length = infoDataSize info := by
    rw [List.length_take, slice_length]
    omega
  refine ⟨?_, ?_⟩
  · rw [← a]
    apply read_shift
    intro k hk
    unfold syncCopy
    rw [writeAt_inside (by omega)]
    simp [slice]
  · intro j hj
    unfold syncCopy
    apply writeAt_outside
    omega

example : ∃ info m', write (fun _ => 0) ⟨2, 8, 4⟩ ⟨[1, 2], [[3], [4, 5, 6]], [2]⟩ = (some info, m') ∧
    info = ⟨2, [1, 3], [2], 4⟩ ∧ slice m' 0 10 = [0, 0, 1, 2, 3, 4, 5, 6, 0, 0] ∧
    slice (syncCopy (fun _ => 9) ⟨1, 7, 0⟩ m' ⟨2, 8, 4⟩) 0 9 = [9, 1, 2, 3, 4, 5, 6, 9, 9] :=
  ⟨_, _, rfl, by decide, by decide, by decide⟩

/-- C09: a write succeeds exactly if the object fits into the reservation; in every case no byte outside the
reservation is modified. -/
theorem C09_oversized_write_refused (m : Mem) (r : Resv) (d : Serialized) :
    ((write m r d).1 = none ↔ r.last < r.first + (d.sData.length + (d.rawBuffers.map List.length).sum)) ∧
    ∀ j, j < r.first ∨ r.last ≤ j → (write m r d).2 j = m j := by
  obtain ⟨h1, -, h3⟩ := write_spec m r d
  refine ⟨?_, h1⟩
  unfold dataSize at h3
  rw [← Option.not_isSome_iff_eq_none, h3]
  omega

/-- The second raw buffer does not fit: error, and the neighbouring bytes are untouched. -/
example : (write (fun _ => 7) ⟨2, 6, 0⟩ ⟨[1, 2], [[3], [4, 5]], [2]⟩).1 = none ∧
    slice (write (fun _ => 7) ⟨2, 6, 0⟩ ⟨[1, 2], [[3], [4, 5]], [2]⟩).2 0 8 = [7, 7, 1, 2, 3, 7, 7, 7] := by
  decide

end Verif.Props
