import Verif.Lemmas.Serialization
import Verif.Spec.SerializationSeen

/-! Objects with marker keys: every buffer is taken by the array it belongs to. -/
namespace Verif.Serial

theorem lookup_hasKey (k : String) : ∀ kvs : List (Key × Obj), (lookup (.str k) kvs).isSome = hasKey k kvs
  | [] => rfl
  | (k', v) :: t => by
    by_cases h : k' = .str k
    · simp [lookup, hasKey, h]
    · have := lookup_hasKey k t
      simp only [hasKey] at this
      simp [lookup, hasKey, h, this]

theorem lookup_pickled : ∀ kvs : List (Key × Obj), lookup asBytesKey kvs = pickled kvs
  | [] => rfl
  | (k', v) :: t => by
    by_cases h : k' = .str "as_bytes"
    · simp [lookup, pickled, h, asBytesKey]
    · have := lookup_pickled t
      simp only [pickled, asBytesKey] at this
      simp [lookup, pickled, h, asBytesKey, this]

theorem fill_nothing : ∀ sl : List (Option Bytes), fill sl [] = if sl.all Option.isSome then .ok (sl.filterMap id) else .error .unpickling
  | [] => rfl
  | none :: t => by simp [fill]
  | some b :: t => by
    simp only [fill, fill_nothing t]
    by_cases h : t.all Option.isSome = true
    · simp [h, Except.map]
    · simp [h, Except.map]

theorem loads_nil (o : Obj) : loads [] o = unpickled o := by
  cases o with
  | scalar s =>
    cases s with
    | bytes b =>
      cases b with
      | raw b => rfl
      | leaf l => rfl
      | pickle5 h sl =>
        simp only [loads, unpickled, fill_nothing]
        split <;> rfl
    | _ => rfl
  | _ => rfl

theorem seenDict_keys (k : String) : ∀ (kvs l : List (Key × Obj)), seenDict kvs = .ok l → hasKey k l = hasKey k kvs
  | [], l, h => by simp only [seenDict, Except.ok.injEq] at h; subst h; rfl
  | (k', x) :: xs, l, h => by
    simp only [seenDict] at h
    cases hx : seen x with
    | error e => simp [hx, Except.bind] at h
    | ok y =>
      cases hl : seenDict xs with
      | error e => simp [hx, hl, Except.bind, Except.map] at h
      | ok l' =>
        simp only [hx, hl, Except.bind, Except.map, Except.ok.injEq] at h
        subst h
        have := seenDict_keys k xs l' hl
        simp only [hasKey] at this
        simp [hasKey, this]

mutual
theorem seen_decode (thr : Nat) : ∀ (o : Obj) (st : Bufs), TakesNone o →
    ∃ b c, Ext st (encode thr o st).2 b c ∧
      ∀ rb rc, decode (encode thr o st).1 ⟨b ++ rb, c ++ rc⟩ = (seen o).map (·, ⟨rb, rc⟩)
  | .scalar s, st, _ => ⟨[], [], ⟨by simp [encode], by simp [encode]⟩, fun rb rc => by simp [encode, decode, seen, Except.map]⟩
  | .byteArray s, st, _ => ⟨[], [], ⟨by simp [encode], by simp [encode]⟩, fun rb rc => by simp [encode, decode, seen, Except.map]⟩
  | .list xs, st, h => by
    obtain ⟨b, c, h1, h2⟩ := seen_decodeList thr xs st (by simpa [TakesNone] using h)
    refine ⟨b, c, by simpa [encode] using h1, fun rb rc => ?_⟩
    simp only [encode, decode, h2, seen]
    cases seenList xs <;> rfl
  | .dict kvs, st, h => by
    simp only [TakesNone] at h
    obtain ⟨b, c, h1, h2⟩ := seen_decodeDict thr kvs st h.2
    refine ⟨b, c, by simpa [encode] using h1, fun rb rc => ?_⟩
    simp only [encode, decode, h2, seen]
    cases hl : seenDict kvs with
    | error e => rfl
    | ok l =>
      simp only [Except.bind, Except.map, decodeCustom, cloudKey, pickleKey, pickle5Key, lookup_hasKey, seenDict_keys _ kvs l hl,
        lookup_pickled]
      by_cases hk : (hasKey "__cloud_custom__" kvs || hasKey "__pickle_custom__" kvs) = true
      · simp only [hk, if_true]
        cases pickled l with
        | none => rfl
        | some b => simp only [loads_nil]
      · have hp : hasKey "__pickle5_custom__" kvs = false := by
          cases hp : hasKey "__pickle5_custom__" kvs with
          | false => rfl
          | true => exact absurd (by simpa using h.1 hp) hk
        simp only [hk, hp]
        rfl
  | .frame hd bufs, st, _ => by
    refine ⟨bufs.filter (outOfBand thr), [(bufs.filter (outOfBand thr)).length], ⟨rfl, rfl⟩, fun rb rc => ?_⟩
    simp [encode, encodeFrame, custom, decode, decodeMap, Except.bind, Except.map, decodeCustom, lookup, cloudKey,
      pickleKey, pickle5Key, asBytesKey, loads, fill_slots, dropBuffers, seen]
  | .leaf l, st, _ => by
    refine ⟨[], [], ⟨by simp [encode], by simp [encode]⟩, fun rb rc => ?_⟩
    cases l <;>
    simp [encode, encodeLeaf, custom, decode, decodeMap, Except.bind, Except.map, decodeCustom, lookup, cloudKey,
      pickleKey, asBytesKey, loads, seen]
theorem seen_decodeList (thr : Nat) : ∀ (xs : List Obj) (st : Bufs), TakesNoneList xs →
    ∃ b c, Ext st (encodeList thr xs st).2 b c ∧
      ∀ rb rc, decodeList (encodeList thr xs st).1 ⟨b ++ rb, c ++ rc⟩ = (seenList xs).map (·, ⟨rb, rc⟩)
  | [], st, _ => ⟨[], [], ⟨by simp [encodeList], by simp [encodeList]⟩, fun rb rc => by simp [encodeList, decodeList, seenList, Except.map]⟩
  | x :: xs, st, h => by
    simp only [TakesNoneList] at h
    obtain ⟨b, c, h1, h2⟩ := seen_decode thr x st h.1
    obtain ⟨b', c', h1', h2'⟩ := seen_decodeList thr xs (encode thr x st).2 h.2
    refine ⟨b ++ b', c ++ c', ⟨?_, ?_⟩, fun rb rc => ?_⟩
    · simp [encodeList, h1'.buffers, h1.buffers]
    · simp [encodeList, h1'.counts, h1.counts]
    · simp only [encodeList, decodeList, List.append_assoc, h2, seenList]
      cases seen x with
      | error e => rfl
      | ok y =>
        simp only [Except.map, Except.bind, h2']
        cases seenList xs <;> rfl
theorem seen_decodeDict (thr : Nat) : ∀ (xs : List (Key × Obj)) (st : Bufs), TakesNoneDict xs →
    ∃ b c, Ext st (encodeDict thr xs st).2 b c ∧
      ∀ rb rc, decodeMap (encodeDict thr xs st).1 ⟨b ++ rb, c ++ rc⟩ = (seenDict xs).map (·, ⟨rb, rc⟩)
  | [], st, _ => ⟨[], [], ⟨by simp [encodeDict], by simp [encodeDict]⟩, fun rb rc => by simp [encodeDict, decodeMap, seenDict, Except.map]⟩
  | (k, x) :: xs, st, h => by
    simp only [TakesNoneDict] at h
    obtain ⟨b, c, h1, h2⟩ := seen_decode thr x st h.1
    obtain ⟨b', c', h1', h2'⟩ := seen_decodeDict thr xs (encode thr x st).2 h.2
    refine ⟨b ++ b', c ++ c', ⟨?_, ?_⟩, fun rb rc => ?_⟩
    · simp [encodeDict, h1'.buffers, h1.buffers]
    · simp [encodeDict, h1'.counts, h1.counts]
    · simp only [encodeDict, decodeMap, List.append_assoc, h2, seenDict]
      cases seen x with
      | error e => rfl
      | ok y =>
        simp only [Except.map, Except.bind, h2']
        cases seenDict xs <;> rfl
end

theorem deserialize_seen (thr : Nat) (o : Obj) (h : TakesNone o) :
    deserialize (serialize thr o) = (seen o).map (·, []) := by
  obtain ⟨b, c, h1, h2⟩ := seen_decode thr o ⟨[], []⟩ h
  have hb := h1.buffers
  have hc := h1.counts
  simp only [List.nil_append] at hb hc
  have := h2 [] []
  simp only [List.append_nil] at this
  unfold deserialize serialize
  simp only
  have e : (encode thr o ⟨[], []⟩).2 = ⟨b, c⟩ := by
    cases hh : (encode thr o ⟨[], []⟩).2 with
    | mk x y => rw [hh] at hb hc; simp_all
  rw [e, this]
  cases seen o <;> rfl

end Verif.Serial
