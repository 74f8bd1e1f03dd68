import Verif.Spec.Serialization

/-! Helper lemmas for serialization. -/
namespace Verif.Serial

theorem fill_slots (thr : Nat) (bufs : List Bytes) (rest : List Bytes) :
    fill (slots thr bufs) (bufs.filter (outOfBand thr) ++ rest) = .ok bufs := by
  induction bufs with
  | nil => simp [slots, fill]
  | cons b t ih =>
    have ih' : fill (t.map fun b => if outOfBand thr b then none else some b) (t.filter (outOfBand thr) ++ rest) = .ok t := ih
    by_cases h : outOfBand thr b = true
    · simp [slots, h, fill, ih', Except.map]
    · simp [slots, h, fill, ih', Except.map]

/-- `st'` extends `st` by the buffers and counts added during encoding. -/
structure Ext (st st' : Bufs) (b : List Bytes) (c : List Nat) : Prop where
  buffers : st'.buffers = st.buffers ++ b
  counts : st'.counts = st.counts ++ c

theorem lookup_clean (kvs : List (Key × Obj)) (h : CleanDict kvs) (k : Key)
    (hk : k = cloudKey ∨ k = pickleKey ∨ k = pickle5Key) : lookup k kvs = none := by
  induction kvs with
  | nil => rfl
  | cons a t ih =>
    obtain ⟨k', v⟩ := a
    simp only [CleanDict] at h
    have hne : k' ≠ k := by
      rcases hk with rfl | rfl | rfl
      · exact h.1.1
      · exact h.1.2.1
      · exact h.1.2.2
    simp [lookup, hne, ih h.2.2]

mutual
theorem roundtrip (thr : Nat) : ∀ (o : Obj) (st : Bufs), Clean o →
    ∃ b c, Ext st (encode thr o st).2 b c ∧ ∀ rb rc, decode (encode thr o st).1 ⟨b ++ rb, c ++ rc⟩ = .ok (o, ⟨rb, rc⟩)
  | .scalar s, st, _ => ⟨[], [], ⟨by simp [encode], by simp [encode]⟩, fun rb rc => by simp [encode, decode]⟩
  | .byteArray _, _, h => by simp [Clean] at h
  | .list xs, st, h => by
    obtain ⟨b, c, h1, h2⟩ := roundtripList thr xs st (by simpa [Clean] using h)
    exact ⟨b, c, by simpa [encode] using h1, fun rb rc => by simp [encode, decode, h2, Except.map]⟩
  | .dict kvs, st, h => by
    have hc : CleanDict kvs := by simpa [Clean] using h
    obtain ⟨b, c, h1, h2⟩ := roundtripDict thr kvs st hc
    refine ⟨b, c, by simpa [encode] using h1, fun rb rc => ?_⟩
    simp [encode, decode, h2, Except.bind, decodeCustom, lookup_clean kvs hc cloudKey (by simp),
      lookup_clean kvs hc pickleKey (by simp), lookup_clean kvs hc pickle5Key (by simp)]
  | .frame hd bufs, st, _ => by
    refine ⟨bufs.filter (outOfBand thr), [(bufs.filter (outOfBand thr)).length], ⟨rfl, rfl⟩, fun rb rc => ?_⟩
    simp [encode, encodeFrame, custom, decode, decodeMap, Except.bind, Except.map, decodeCustom, lookup, cloudKey,
      pickleKey, pickle5Key, asBytesKey, loads, fill_slots, dropBuffers]
  | .leaf l, st, _ => by
    refine ⟨[], [], ⟨by simp [encode], by simp [encode]⟩, fun rb rc => ?_⟩
    cases l <;>
    simp [encode, encodeLeaf, custom, decode, decodeMap, Except.bind, Except.map, decodeCustom, lookup, cloudKey,
      pickleKey, asBytesKey, loads]
theorem roundtripList (thr : Nat) : ∀ (xs : List Obj) (st : Bufs), CleanList xs →
    ∃ b c, Ext st (encodeList thr xs st).2 b c ∧
      ∀ rb rc, decodeList (encodeList thr xs st).1 ⟨b ++ rb, c ++ rc⟩ = .ok (xs, ⟨rb, rc⟩)
  | [], st, _ => ⟨[], [], ⟨by simp [encodeList], by simp [encodeList]⟩, fun rb rc => by simp [encodeList, decodeList]⟩
  | x :: xs, st, h => by
    simp only [CleanList] at h
    obtain ⟨b, c, h1, h2⟩ := roundtrip thr x st h.1
    obtain ⟨b', c', h1', h2'⟩ := roundtripList thr xs (encode thr x st).2 h.2
    refine ⟨b ++ b', c ++ c', ⟨?_, ?_⟩, fun rb rc => ?_⟩
    · simp [encodeList, h1'.buffers, h1.buffers]
    · simp [encodeList, h1'.counts, h1.counts]
    · simp [encodeList, decodeList, h2, h2', Except.bind, Except.map]
theorem roundtripDict (thr : Nat) : ∀ (xs : List (Key × Obj)) (st : Bufs), CleanDict xs →
    ∃ b c, Ext st (encodeDict thr xs st).2 b c ∧
      ∀ rb rc, decodeMap (encodeDict thr xs st).1 ⟨b ++ rb, c ++ rc⟩ = .ok (xs, ⟨rb, rc⟩)
  | [], st, _ => ⟨[], [], ⟨by simp [encodeDict], by simp [encodeDict]⟩, fun rb rc => by simp [encodeDict, decodeMap]⟩
  | (k, x) :: xs, st, h => by
    simp only [CleanDict] at h
    obtain ⟨b, c, h1, h2⟩ := roundtrip thr x st h.2.1
    obtain ⟨b', c', h1', h2'⟩ := roundtripDict thr xs (encode thr x st).2 h.2.2
    refine ⟨b ++ b', c ++ c', ⟨?_, ?_⟩, fun rb rc => ?_⟩
    · simp [encodeDict, h1'.buffers, h1.buffers]
    · simp [encodeDict, h1'.counts, h1.counts]
    · simp [encodeDict, decodeMap, h2, h2', Except.bind, Except.map]
end

theorem deserialize_serialize (thr : Nat) (o : Obj) (h : Clean o) : deserialize (serialize thr o) = .ok (o, []) := by
  obtain ⟨b, c, h1, h2⟩ := roundtrip thr o ⟨[], []⟩ h
  have hb := h1.buffers
  have hc := h1.counts
  simp only [List.nil_append] at hb hc
  have := h2 [] []
  simp only [List.append_nil] at this
  unfold deserialize serialize
  simp only
  have e : (encode thr o ⟨[], []⟩).2 = ⟨b, c⟩ := by
    cases hh : (encode thr o ⟨[], []⟩).2 with
    | mk x y => rw [hh] at hb hc; simp_all
  rw [e, this]
  rfl

mutual
theorem encode_buffers (thr : Nat) : ∀ (o : Obj) (st : Bufs), (encode thr o st).2.buffers =
    st.buffers ++ (frames o).flatMap fun f => f.2.filter (outOfBand thr)
  | .scalar s, st => by simp [encode, frames]
  | .byteArray b, st => by simp [encode, frames]
  | .list xs, st => by simp [encode, frames, encodeList_buffers]
  | .dict xs, st => by simp [encode, frames, encodeDict_buffers]
  | .frame h b, st => by simp [encode, encodeFrame, frames]
  | .leaf l, st => by simp [encode, frames]
theorem encodeList_buffers (thr : Nat) : ∀ (xs : List Obj) (st : Bufs), (encodeList thr xs st).2.buffers =
    st.buffers ++ (framesList xs).flatMap fun f => f.2.filter (outOfBand thr)
  | [], st => by simp [encodeList, framesList]
  | x :: xs, st => by simp [encodeList, framesList, encodeList_buffers thr xs, encode_buffers thr x]
theorem encodeDict_buffers (thr : Nat) : ∀ (xs : List (Key × Obj)) (st : Bufs), (encodeDict thr xs st).2.buffers =
    st.buffers ++ (framesDict xs).flatMap fun f => f.2.filter (outOfBand thr)
  | [], st => by simp [encodeDict, framesDict]
  | (k, x) :: xs, st => by simp [encodeDict, framesDict, encodeDict_buffers thr xs, encode_buffers thr x]
end

end Verif.Serial
