import Verif.Model.SharedBuffer

namespace Verif.SharedBuffer
open Verif.Shm

theorem slice_length (m : Mem) (i j : Nat) : (slice m i j).length = j - i := by simp [slice]

theorem slice_congr {m m' : Mem} {i j : Nat} (h : ∀ k, i ≤ k → k < j → m k = m' k) :
    slice m i j = slice m' i j := by
  unfold slice
  apply List.map_congr_left
  intro k hk
  have := List.mem_range.1 hk
  exact h _ (by omega) (by omega)

theorem slice_writeAt (m : Mem) (i : Nat) (l : List Byte) : slice (writeAt m i l) i (i + l.length) = l := by
  apply List.ext_getElem
  · simp [slice_length]
  · intro k h1 h2
    have hk : k < l.length := h2
    simp [slice, writeAt, hk]

theorem writeAt_outside {m : Mem} {i : Nat} {l : List Byte} {j : Nat} (h : j < i ∨ i + l.length ≤ j) :
    writeAt m i l j = m j := by
  unfold writeAt
  rw [if_neg]
  omega

/-- Everything about the raw buffer loop. -/
theorem writeRaw_spec (last : Nat) (bs : List (List Byte)) : ∀ (m : Mem) (pos : Nat),
    (∀ j, j < pos ∨ last ≤ j → pos ≤ last → (writeRaw m last pos bs).2 j = m j) ∧
    ((writeRaw m last pos bs).1 = true →
      readRaw (writeRaw m last pos bs).2 pos (bs.map List.length) = bs) ∧
    (pos ≤ last → ((writeRaw m last pos bs).1 = true ↔ pos + (bs.map List.length).sum ≤ last)) := by
  induction bs with
  | nil => intro m pos; simp [writeRaw, readRaw]
  | cons b rest ih =>
    intro m pos
    unfold writeRaw
    by_cases hgt : pos + b.length > last
    · simp only [hgt, if_true]
      refine ⟨by simp, by simp, ?_⟩
      intro _
      simp
      omega
    · simp only [hgt, if_false]
      obtain ⟨i1, i2, i3⟩ := ih (writeAt m pos b) (pos + b.length)
      have hle : pos + b.length ≤ last := by omega
      refine ⟨?_, ?_, ?_⟩
      · intro j hj _
        rw [i1 j (by omega) hle]
        exact writeAt_outside (by omega)
      · intro ht
        simp only [List.map_cons, readRaw, i2 ht]
        congr 1
        rw [slice_congr (m' := writeAt m pos b)]
        · exact slice_writeAt m pos b
        · intro k h1 h2
          exact i1 k (by omega) hle
      · intro _
        rw [i3 hle]
        simp
        omega

theorem readRaw_congr {m m' : Mem} (lens : List Nat) : ∀ (pos : Nat),
    (∀ k, pos ≤ k → k < pos + lens.sum → m k = m' k) → readRaw m pos lens = readRaw m' pos lens := by
  induction lens with
  | nil => intro pos _; rfl
  | cons n rest ih =>
    intro pos h
    simp only [List.sum_cons] at h
    simp only [readRaw]
    rw [slice_congr (m' := m'), ih]
    · intro k h1 h2; exact h k (by omega) (by omega)
    · intro k h1 h2; exact h k h1 (by omega)

theorem read_congr {m m' : Mem} {first : Nat} {info : SharedInfo}
    (h : ∀ k, first ≤ k → k < first + infoDataSize info → m k = m' k) : read m first info = read m' first info := by
  unfold read
  unfold infoDataSize at h
  rw [slice_congr (m' := m'), readRaw_congr (m' := m')]
  · intro k h1 h2; exact h k (by omega) (by omega)
  · intro k h1 h2; exact h k h1 (by omega)

theorem write_spec (m : Mem) (r : Resv) (d : Serialized) :
    (∀ j, j < r.first ∨ r.last ≤ j → (write m r d).2 j = m j) ∧
    (∀ info, (write m r d).1 = some info →
      read (write m r d).2 r.first info = d ∧ info.svc = r.svc ∧ infoDataSize info = dataSize d) ∧
    ((write m r d).1.isSome ↔ r.first + dataSize d ≤ r.last) := by
  unfold write
  by_cases hgt : r.first + d.sData.length > r.last
  · simp only [hgt, if_true]
    refine ⟨by simp, by simp, ?_⟩
    simp [dataSize]
    omega
  · simp only [hgt, if_false]
    have hle : r.first + d.sData.length ≤ r.last := by omega
    obtain ⟨i1, i2, i3⟩ := writeRaw_spec r.last d.rawBuffers (writeAt m r.first d.sData) (r.first + d.sData.length)
    generalize hw : writeRaw (writeAt m r.first d.sData) r.last (r.first + d.sData.length) d.rawBuffers = o at *
    obtain ⟨b, m2⟩ := o
    simp only at i1 i2 i3
    have hframe : ∀ j, j < r.first ∨ r.last ≤ j → m2 j = m j := by
      intro j hj
      rw [i1 j (by omega) hle]
      exact writeAt_outside (by omega)
    cases b with
    | false =>
      refine ⟨hframe, by simp, ?_⟩
      have := i3 hle
      simp [dataSize] at this ⊢
      omega
    | true =>
      have hfit := (i3 hle).1 rfl
      refine ⟨hframe, ?_, ?_⟩
      · intro info hi
        simp only [Option.some.injEq] at hi
        subst hi
        refine ⟨?_, rfl, rfl⟩
        unfold read
        simp only [i2 rfl]
        rw [slice_congr (m' := writeAt m r.first d.sData), slice_writeAt]
        intro k h1 h2
        exact i1 k (by omega) hle
      · simp [dataSize]
        omega

theorem writes_frame (ws : List (Resv × Serialized)) : ∀ (m : Mem) (j : Nat),
    (∀ w ∈ ws, j < w.1.first ∨ w.1.last ≤ j) → writes m ws j = m j := by
  induction ws with
  | nil => intro m j _; rfl
  | cons w t ih =>
    intro m j h
    obtain ⟨r, d⟩ := w
    simp only [writes]
    rw [ih _ _ (fun w hw => h w (by simp [hw]))]
    exact (write_spec m r d).1 j (h (r, d) (by simp))

theorem writeAt_inside {m : Mem} {i : Nat} {l : List Byte} {k : Nat} (h : k < l.length) :
    writeAt m i l (i + k) = l[k] := by
  simp [writeAt, h]

theorem readRaw_shift {m m' : Mem} (a b : Nat) (lens : List Nat) : ∀ (pos : Nat),
    (∀ k, pos ≤ k → k < pos + lens.sum → m (a + k) = m' (b + k)) →
      readRaw m (a + pos) lens = readRaw m' (b + pos) lens := by
  induction lens with
  | nil => intro pos _; rfl
  | cons n rest ih =>
    intro pos h
    simp only [List.sum_cons] at h
    simp only [readRaw, Nat.add_assoc]
    congr 1
    · unfold slice
      have e1 : a + (pos + n) - (a + pos) = n := by omega
      have e2 : b + (pos + n) - (b + pos) = n := by omega
      rw [e1, e2]
      apply List.map_congr_left
      intro k hk
      have := List.mem_range.1 hk
      have := h (pos + k) (by omega) (by omega)
      simpa [Nat.add_assoc] using this
    · exact ih (pos + n) (fun k h1 h2 => h k (by omega) (by omega))

theorem read_shift {m m' : Mem} {a b : Nat} {info : SharedInfo}
    (h : ∀ k, k < infoDataSize info → m (a + k) = m' (b + k)) : read m a info = read m' b info := by
  unfold infoDataSize at h
  unfold read
  congr 1
  · unfold slice
    have e1 : a + info.sDataLen - a = info.sDataLen := by omega
    have e2 : b + info.sDataLen - b = info.sDataLen := by omega
    rw [e1, e2]
    apply List.map_congr_left
    intro k hk
    have := List.mem_range.1 hk
    exact h k (by omega)
  · exact readRaw_shift a b info.rawLens info.sDataLen (fun k _ h2 => h k h2)

end Verif.SharedBuffer
