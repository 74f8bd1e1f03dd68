import Verif.Lemmas.Serialization

/-! Helper lemmas for serialization: what comes back unchanged has no marker keys. -/
namespace Verif.Serial

theorem loads_not_dict (bufs : List Bytes) (b : Obj) (kvs : List (Key × Obj)) : loads bufs b ≠ .ok (.dict kvs) := by
  unfold loads
  split
  · simp
  · rename_i h sl
    cases fill sl bufs <;> simp [Except.map]
  · simp

theorem decodeCustom_dict (kvs kvs' : List (Key × Obj)) (st st' : Bufs) (h : decodeCustom kvs' st = .ok (.dict kvs, st')) :
    kvs' = kvs ∧ lookup cloudKey kvs = none ∧ lookup pickleKey kvs = none ∧ lookup pickle5Key kvs = none := by
  unfold decodeCustom at h
  split at h
  · split at h
    · cases h
    · rename_i b _
      cases hl : loads [] b with
      | error e => rw [hl] at h; cases h
      | ok v =>
        rw [hl] at h
        simp only [Except.map, Except.ok.injEq, Prod.mk.injEq] at h
        exact absurd (hl.trans (by rw [h.1])) (loads_not_dict _ _ _)
  · rename_i h1
    split at h
    · split at h
      · cases h
      · rename_i b _
        cases hl : loads st.buffers b with
        | error e => rw [hl] at h; cases h
        | ok v =>
          rw [hl] at h
          simp only [Except.map, Except.ok.injEq, Prod.mk.injEq] at h
          exact absurd (hl.trans (by rw [h.1])) (loads_not_dict _ _ _)
    · rename_i h2
      simp only [Except.ok.injEq, Prod.mk.injEq, Obj.dict.injEq] at h
      obtain ⟨rfl, -⟩ := h
      simp only [Bool.or_eq_true, not_or, Bool.not_eq_true, Option.isSome_eq_false_iff, Option.isNone_iff_eq_none] at h1 h2
      exact ⟨rfl, h1.1, h1.2, h2⟩

theorem key_of_lookup_none {k : Key} {kvs : List (Key × Obj)} (h : lookup k kvs = none) : ∀ p ∈ kvs, p.1 ≠ k := by
  induction kvs with
  | nil => simp
  | cons a t ih =>
    obtain ⟨k', v⟩ := a
    simp only [lookup] at h
    split at h
    · cases h
    · rename_i hne
      intro p hp
      rcases List.mem_cons.1 hp with rfl | hp
      · exact hne
      · exact ih h p hp

theorem cleanDict_of {kvs : List (Key × Obj)} (hk : ∀ p ∈ kvs, p.1 ≠ cloudKey ∧ p.1 ≠ pickleKey ∧ p.1 ≠ pickle5Key)
    (hv : ∀ p ∈ kvs, Clean p.2) : CleanDict kvs := by
  induction kvs with
  | nil => trivial
  | cons a t ih =>
    obtain ⟨k, x⟩ := a
    refine ⟨hk (k, x) (by simp), hv (k, x) (by simp), ih (fun p hp => hk p (by simp [hp])) (fun p hp => hv p (by simp [hp]))⟩

mutual
theorem clean_of_same (thr : Nat) : ∀ (o : Obj) (st st1 st2 : Bufs), decode (encode thr o st).1 st1 = .ok (o, st2) → Clean o
  | .scalar _, _, _, _, _ => trivial
  | .byteArray _, _, _, _, h => by simp [encode, decode] at h
  | .list xs, st, st1, st2, h => by
    simp only [encode, decode] at h
    cases hl : decodeList (encodeList thr xs st).1 st1 with
    | error e => rw [hl] at h; cases h
    | ok r =>
      rw [hl] at h
      simp only [Except.map, Except.ok.injEq, Prod.mk.injEq, Obj.list.injEq] at h
      exact clean_of_sameList thr xs st st1 r.2 (by rw [hl, ← h.1])
  | .dict kvs, st, st1, st2, h => by
    simp only [encode, decode] at h
    cases hl : decodeMap (encodeDict thr kvs st).1 st1 with
    | error e => rw [hl] at h; cases h
    | ok r =>
      rw [hl] at h
      obtain ⟨e, h1, h2, h3⟩ := decodeCustom_dict kvs r.1 r.2 st2 h
      refine cleanDict_of (fun p hp => ⟨key_of_lookup_none h1 p hp, key_of_lookup_none h2 p hp, key_of_lookup_none h3 p hp⟩) ?_
      exact clean_of_sameDict thr kvs st st1 r.2 (by rw [hl, ← e])
  | .frame _ _, _, _, _, _ => trivial
  | .leaf _, _, _, _, _ => trivial
theorem clean_of_sameList (thr : Nat) : ∀ (xs : List Obj) (st st1 st2 : Bufs),
    decodeList (encodeList thr xs st).1 st1 = .ok (xs, st2) → CleanList xs
  | [], _, _, _, _ => trivial
  | x :: xs, st, st1, st2, h => by
    simp only [encodeList, decodeList] at h
    cases h1 : decode (encode thr x st).1 st1 with
    | error e => rw [h1] at h; cases h
    | ok r =>
      rw [h1] at h
      simp only [Except.bind] at h
      cases h2 : decodeList (encodeList thr xs (encode thr x st).2).1 r.2 with
      | error e => rw [h2] at h; cases h
      | ok q =>
        rw [h2] at h
        simp only [Except.map, Except.ok.injEq, Prod.mk.injEq, List.cons.injEq] at h
        exact ⟨clean_of_same thr x st st1 r.2 (by rw [h1, ← h.1.1]),
          clean_of_sameList thr xs _ r.2 q.2 (by rw [h2, ← h.1.2])⟩
theorem clean_of_sameDict (thr : Nat) : ∀ (xs : List (Key × Obj)) (st st1 st2 : Bufs),
    decodeMap (encodeDict thr xs st).1 st1 = .ok (xs, st2) → ∀ p ∈ xs, Clean p.2
  | [], _, _, _, _ => by simp
  | (k, x) :: xs, st, st1, st2, h => by
    simp only [encodeDict, decodeMap] at h
    cases h1 : decode (encode thr x st).1 st1 with
    | error e => rw [h1] at h; cases h
    | ok r =>
      rw [h1] at h
      simp only [Except.bind] at h
      cases h2 : decodeMap (encodeDict thr xs (encode thr x st).2).1 r.2 with
      | error e => rw [h2] at h; cases h
      | ok q =>
        rw [h2] at h
        simp only [Except.map, Except.ok.injEq, Prod.mk.injEq, List.cons.injEq, true_and] at h
        intro p hp
        rcases List.mem_cons.1 hp with rfl | hp
        · exact clean_of_same thr x st st1 r.2 (by rw [h1, ← h.1.1])
        · exact clean_of_sameDict thr xs _ r.2 q.2 (by rw [h2, ← h.1.2]) p hp
end

theorem fill_nil (thr : Nat) : ∀ (bufs r : List Bytes), fill (slots thr bufs) [] = .ok r → ∀ b ∈ bufs, b.length < thr
  | [], _, _ => by simp
  | b :: t, r, h => by
    by_cases hb : outOfBand thr b = true
    · simp [slots, hb, fill] at h
    · simp only [slots, List.map_cons, hb, Bool.false_eq_true, if_false, fill] at h
      cases ht : fill (slots thr t) [] with
      | error e => simp only [slots] at ht; rw [ht] at h; cases h
      | ok r' =>
        intro c hc
        rcases List.mem_cons.1 hc with rfl | hc
        · simp only [outOfBand, decide_eq_true_eq] at hb; omega
        · exact fill_nil thr t r' ht c hc

mutual
theorem small_of_same (thr : Nat) : ∀ (o : Obj) (st st2 : Bufs) (cs : List Nat),
    decode (encode thr o st).1 ⟨[], cs⟩ = .ok (o, st2) → st2.buffers = [] ∧ ∀ f ∈ frames o, ∀ b ∈ f.2, b.length < thr
  | .scalar _, _, _, _, h => by
    simp only [encode, decode, Except.ok.injEq, Prod.mk.injEq] at h
    simp [← h.2, frames]
  | .byteArray _, _, _, _, h => by simp [encode, decode] at h
  | .list xs, st, st2, cs, h => by
    simp only [encode, decode] at h
    cases hl : decodeList (encodeList thr xs st).1 ⟨[], cs⟩ with
    | error e => rw [hl] at h; cases h
    | ok r =>
      rw [hl] at h
      simp only [Except.map, Except.ok.injEq, Prod.mk.injEq, Obj.list.injEq] at h
      obtain ⟨h1, h2⟩ := small_of_sameList thr xs st r.2 cs (by rw [hl, ← h.1])
      exact ⟨by rw [← h.2, h1], by simpa [frames] using h2⟩
  | .dict kvs, st, st2, cs, h => by
    have hcl := clean_of_same thr (.dict kvs) st _ _ h
    simp only [encode, decode] at h
    cases hl : decodeMap (encodeDict thr kvs st).1 ⟨[], cs⟩ with
    | error e => rw [hl] at h; cases h
    | ok r =>
      rw [hl] at h
      obtain ⟨e, h1, h2, h3⟩ := decodeCustom_dict kvs r.1 r.2 st2 h
      obtain ⟨h4, h5⟩ := small_of_sameDict thr kvs st r.2 cs (by rw [hl, ← e])
      simp only [Except.bind, decodeCustom, e, h1, h2, h3, Option.isSome_none, Bool.or_false, Bool.false_eq_true, if_false,
        Except.ok.injEq, Prod.mk.injEq] at h
      exact ⟨by rw [← h.2, h4], by simpa [frames] using h5⟩
  | .frame hd bufs, st, st2, cs, h => by
    simp only [encode, encodeFrame, custom, decode, decodeMap, Except.bind, Except.map, decodeCustom, lookup, cloudKey,
      pickleKey, pickle5Key, asBytesKey, loads] at h
    simp at h
    cases hf : fill (slots thr bufs) [] with
    | error e => rw [hf] at h; simp at h
    | ok r =>
      rw [hf] at h
      simp only [Except.ok.injEq, Prod.mk.injEq] at h
      refine ⟨?_, ?_⟩
      · rw [← h.2]
        cases cs <;> simp [dropBuffers]
      · simp only [frames, List.mem_singleton]
        rintro f rfl b hb
        exact fill_nil thr bufs r hf b hb
  | .leaf l, st, st2, cs, h => by
    cases l <;>
    simp [encode, encodeLeaf, custom, decode, decodeMap, Except.bind, Except.map, decodeCustom, lookup, cloudKey,
      pickleKey, asBytesKey, loads] at h <;> simp [← h, frames]
theorem small_of_sameList (thr : Nat) : ∀ (xs : List Obj) (st st2 : Bufs) (cs : List Nat),
    decodeList (encodeList thr xs st).1 ⟨[], cs⟩ = .ok (xs, st2) →
      st2.buffers = [] ∧ ∀ f ∈ framesList xs, ∀ b ∈ f.2, b.length < thr
  | [], _, _, _, h => by
    simp only [encodeList, decodeList, Except.ok.injEq, Prod.mk.injEq] at h
    simp [← h.2, framesList]
  | x :: xs, st, st2, cs, h => by
    simp only [encodeList, decodeList] at h
    cases h1 : decode (encode thr x st).1 ⟨[], cs⟩ with
    | error e => rw [h1] at h; cases h
    | ok r =>
      rw [h1] at h
      simp only [Except.bind] at h
      cases h2 : decodeList (encodeList thr xs (encode thr x st).2).1 r.2 with
      | error e => rw [h2] at h; cases h
      | ok q =>
        rw [h2] at h
        simp only [Except.map, Except.ok.injEq, Prod.mk.injEq, List.cons.injEq] at h
        obtain ⟨a1, a2⟩ := small_of_same thr x st r.2 cs (by rw [h1, ← h.1.1])
        have hr : r.2 = ⟨[], r.2.counts⟩ := by rw [← a1]
        obtain ⟨b1, b2⟩ := small_of_sameList thr xs _ q.2 r.2.counts (by rw [← hr, h2, ← h.1.2])
        refine ⟨by rw [← h.2, b1], ?_⟩
        intro f hf
        simp only [framesList, List.mem_append] at hf
        rcases hf with hf | hf
        · exact a2 f hf
        · exact b2 f hf
theorem small_of_sameDict (thr : Nat) : ∀ (xs : List (Key × Obj)) (st st2 : Bufs) (cs : List Nat),
    decodeMap (encodeDict thr xs st).1 ⟨[], cs⟩ = .ok (xs, st2) →
      st2.buffers = [] ∧ ∀ f ∈ framesDict xs, ∀ b ∈ f.2, b.length < thr
  | [], _, _, _, h => by
    simp only [encodeDict, decodeMap, Except.ok.injEq, Prod.mk.injEq] at h
    simp [← h.2, framesDict]
  | (k, x) :: xs, st, st2, cs, h => by
    simp only [encodeDict, decodeMap] at h
    cases h1 : decode (encode thr x st).1 ⟨[], cs⟩ with
    | error e => rw [h1] at h; cases h
    | ok r =>
      rw [h1] at h
      simp only [Except.bind] at h
      cases h2 : decodeMap (encodeDict thr xs (encode thr x st).2).1 r.2 with
      | error e => rw [h2] at h; cases h
      | ok q =>
        rw [h2] at h
        simp only [Except.map, Except.ok.injEq, Prod.mk.injEq, List.cons.injEq, true_and] at h
        obtain ⟨a1, a2⟩ := small_of_same thr x st r.2 cs (by rw [h1, ← h.1.1])
        have hr : r.2 = ⟨[], r.2.counts⟩ := by rw [← a1]
        obtain ⟨b1, b2⟩ := small_of_sameDict thr xs _ q.2 r.2.counts (by rw [← hr, h2, ← h.1.2])
        refine ⟨by rw [← h.2, b1], ?_⟩
        intro f hf
        simp only [framesDict, List.mem_append] at hf
        rcases hf with hf | hf
        · exact a2 f hf
        · exact b2 f hf
end

mutual
theorem encode_asBytes (thr : Nat) : ∀ (o : Obj) (st : Bufs), encode thr (asBytes o) st = encode thr o st
  | .scalar _, _ => rfl
  | .byteArray _, _ => rfl
  | .list xs, st => by simp only [asBytes, encode, encodeList_asBytes thr xs st]
  | .dict kvs, st => by simp only [asBytes, encode, encodeDict_asBytes thr kvs st]
  | .frame _ _, _ => rfl
  | .leaf _, _ => rfl
theorem encodeList_asBytes (thr : Nat) : ∀ (xs : List Obj) (st : Bufs), encodeList thr (asBytesList xs) st = encodeList thr xs st
  | [], _ => rfl
  | x :: xs, st => by simp only [asBytesList, encodeList, encode_asBytes thr x st, encodeList_asBytes thr xs]
theorem encodeDict_asBytes (thr : Nat) : ∀ (xs : List (Key × Obj)) (st : Bufs),
    encodeDict thr (asBytesDict xs) st = encodeDict thr xs st
  | [], _ => rfl
  | (k, x) :: xs, st => by simp only [asBytesDict, encodeDict, encode_asBytes thr x st, encodeDict_asBytes thr xs]
end

mutual
theorem clean_asBytes : ∀ (o : Obj), NoMarkers o → Clean (asBytes o)
  | .scalar _, _ => trivial
  | .byteArray _, _ => trivial
  | .list xs, h => clean_asBytesList xs h
  | .dict kvs, h => clean_asBytesDict kvs h
  | .frame _ _, _ => trivial
  | .leaf _, _ => trivial
theorem clean_asBytesList : ∀ (xs : List Obj), NoMarkersList xs → CleanList (asBytesList xs)
  | [], _ => trivial
  | x :: xs, h => ⟨clean_asBytes x h.1, clean_asBytesList xs h.2⟩
theorem clean_asBytesDict : ∀ (xs : List (Key × Obj)), NoMarkersDict xs → CleanDict (asBytesDict xs)
  | [], _ => trivial
  | (_, x) :: xs, h => ⟨h.1, clean_asBytes x h.2.1, clean_asBytesDict xs h.2.2⟩
end

mutual
theorem frames_asBytes : ∀ (o : Obj), frames (asBytes o) = frames o
  | .scalar _ => rfl
  | .byteArray _ => rfl
  | .list xs => framesList_asBytes xs
  | .dict kvs => framesDict_asBytes kvs
  | .frame _ _ => rfl
  | .leaf _ => rfl
theorem framesList_asBytes : ∀ (xs : List Obj), framesList (asBytesList xs) = framesList xs
  | [] => rfl
  | x :: xs => by simp only [asBytesList, framesList, frames_asBytes x, framesList_asBytes xs]
theorem framesDict_asBytes : ∀ (xs : List (Key × Obj)), framesDict (asBytesDict xs) = framesDict xs
  | [] => rfl
  | (_, x) :: xs => by simp only [asBytesDict, framesDict, frames_asBytes x, framesDict_asBytes xs]
end

theorem serialize_asBytes (thr : Nat) (o : Obj) : serialize thr (asBytes o) = serialize thr o := by
  simp only [serialize, encode_asBytes]

end Verif.Serial
