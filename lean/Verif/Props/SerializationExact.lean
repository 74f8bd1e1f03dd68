import Verif.Lemmas.SerializationExact
import Verif.Lemmas.SerializationSeen
import Verif.Props.Serialization

/-! Exactly which objects survive serialization (C17) and which uses of a stored object see it (C19). -/
namespace Verif.Props
open Verif.Serial

/-- C17, exactly: an object comes back unchanged if and only if it has no `bytearray` and no dictionary with a marker key, at any depth
and for any threshold. -/
theorem C17_exactly_partial (thr : Nat) (o : Obj) :
    (∃ rest, deserialize (serialize thr o) = .ok (o, rest)) ↔ Clean o := by
  constructor
  · rintro ⟨rest, h⟩
    unfold deserialize serialize at h
    simp only at h
    cases hd : decode (encode thr o ⟨[], []⟩).1 (encode thr o ⟨[], []⟩).2 with
    | error e => rw [hd] at h; cases h
    | ok r =>
      rw [hd] at h
      simp only [Except.map, Except.ok.injEq, Prod.mk.injEq] at h
      exact clean_of_same thr o _ _ r.2 (by rw [hd, ← h.1])
  · exact fun h => ⟨[], deserialize_serialize thr o h⟩

example : ¬ Clean (.list [.dict [(.str "__pickle5_custom__", .scalar .none)]]) := by simp [Clean, CleanList, CleanDict]
example : Clean (.list [.dict [(.str "as_bytes", .scalar .none)]]) := by simp [Clean, CleanList, CleanDict]

/-- A forward comes after a local read. -/
def ForwardAfterRead (us : List Use) : Prop := ∃ a b, us = a ++ .read :: b ∧ Use.forward ∈ b

private theorem reads_only (o : Obj) (p : Package) (us : List Use) (h : Use.forward ∉ us) : ∀ r ∈ Entry.run ⟨p, some o⟩ us, r = .ok o := by
  induction us with
  | nil => simp [Entry.run]
  | cons u t ih =>
    cases u
    · simp only [Entry.run, Entry.read, List.mem_cons]
      rintro r (rfl | hr)
      · rfl
      · exact ih (fun e => h (by simp [e])) r hr
    · simp at h

private theorem forward_seen (o : Obj) (p : Package) (us : List Use) (h : Use.forward ∈ us) :
    (deserialize p).map (·.1) ∈ Entry.run ⟨p, some o⟩ us := by
  induction us with
  | nil => cases h
  | cons u t ih =>
    cases u
    · simp only [Entry.run, Entry.read, List.mem_cons]
      exact .inr (ih (by simpa using h))
    · simp [Entry.run, Entry.forward]

/-- C19, exactly: all uses of a stored object observe it if and only if it has no buffer of at least `thr` bytes or it is never forwarded
after a local read. -/
theorem C19_exactly_partial (thr : Nat) (o : Obj) (us : List Use) (hc : Clean o) :
    (∀ r ∈ (Entry.put thr o).run us, r = .ok o) ↔
      (∀ f ∈ frames o, ∀ b ∈ f.2, b.length < thr) ∨ ¬ ForwardAfterRead us := by
  have hd := deserialize_serialize thr o hc
  constructor
  · intro h
    by_cases hf : ForwardAfterRead us
    · left
      induction us with
      | nil => obtain ⟨a, b, e, -⟩ := hf; cases a <;> cases e
      | cons u t ih =>
        cases u
        · have hin : Use.forward ∈ t := by
            obtain ⟨a, b, e, hb⟩ := hf
            cases a with
            | nil => cases e; exact hb
            | cons x a => cases e; simp [hb]
          simp only [Entry.run, Entry.put, Entry.read, hd, List.mem_cons] at h
          have := h _ (.inr (forward_seen o _ t hin))
          unfold deserialize at this
          cases hl : decode (serialize thr o).sData ⟨[], (serialize thr o).bufs.counts⟩ with
          | error e => rw [hl] at this; cases this
          | ok r =>
            rw [hl] at this
            simp only [Except.map, Except.ok.injEq] at this
            exact (small_of_same thr o ⟨[], []⟩ r.2 _ (hl.trans (congrArg _ (Prod.ext this rfl)))).2
        · refine ih ?_ ?_
          · intro r hr
            exact h r (by simp only [Entry.run, List.mem_cons]; exact .inr hr)
          · obtain ⟨a, b, e, hb⟩ := hf
            cases a with
            | nil => cases e
            | cons x a => cases e; exact ⟨a, b, rfl, hb⟩
    · exact .inr hf
  · rintro (h | h)
    · exact C19_small_objects_partial thr o us hc h
    · induction us with
      | nil => simp [Entry.run]
      | cons u t ih =>
        cases u
        · have hin : Use.forward ∉ t := fun e => h ⟨[], t, rfl, e⟩
          simp only [Entry.run, Entry.put, Entry.read, hd, List.mem_cons]
          rintro r (rfl | hr)
          · rfl
          · exact reads_only o _ t hin r hr
        · simp only [Entry.run, List.mem_cons]
          rintro r (rfl | hr)
          · simp [Entry.forward, Entry.put, hd, Except.map]
          · refine ih ?_ r hr
            rintro ⟨a, b, rfl, hb⟩
            exact h ⟨.forward :: a, b, rfl, hb⟩

example : ¬ ∀ r ∈ (Entry.put 2 sample).run [.forward, .read, .read, .forward], r = .ok sample := by
  intro h
  have := h ((Entry.put 2 sample).run [.forward, .read, .read, .forward])[3] (List.getElem_mem _)
  cases this
example : (Entry.put 2 sample).run [.forward, .forward, .read, .read] = List.replicate 4 (.ok sample) := rfl
example : ForwardAfterRead [.forward, .read, .read, .forward] := ⟨[.forward], [.read, .forward], rfl, by simp⟩

/-- C17, proved part: an object without marker keys comes back with every `bytearray` replaced by `bytes` of the same contents and nothing
else changed. -/
theorem C17_as_bytes_partial (thr : Nat) (o : Obj) (h : NoMarkers o) :
    deserialize (serialize thr o) = .ok (asBytes o, []) := by
  rw [← serialize_asBytes]
  exact deserialize_serialize thr _ (clean_asBytes o h)

example : asBytes (.list [.byteArray (.raw [1]), .dict [(.int 2, .byteArray (.raw []))], .scalar .none]) =
    .list [.scalar (.bytes (.raw [1])), .dict [(.int 2, .scalar (.bytes (.raw [])))], .scalar .none] := rfl

/-- C18, proved part: also with `bytearray`s in the object, without marker keys the out-of-band buffers are exactly the large buffers of
all arrays and frames in order and each comes back in the array it belongs to. -/
theorem C18_bytearrays_partial (thr : Nat) (o : Obj) (h : NoMarkers o) :
    (serialize thr o).bufs.buffers = (frames o).flatMap (fun f => f.2.filter fun b => decide (thr ≤ b.length)) ∧
    ∃ o', deserialize (serialize thr o) = .ok (o', []) ∧ frames o' = frames o := by
  have := C18_buffers_partial thr _ (clean_asBytes o h)
  rw [serialize_asBytes, frames_asBytes] at this
  exact this

example : NoMarkers (.list [.byteArray (.raw [1]), sample]) := by simp [sample, NoMarkers, NoMarkersList, NoMarkersDict]
example : (serialize 2 (.list [.byteArray (.raw [1, 2, 3]), sample])).bufs = (serialize 2 sample).bufs := rfl

/-- C18, proved part: marker keys other than `__pickle5_custom__` disturb no buffer. Whatever such dictionaries contain and
wherever they are, every array and frame outside of them comes back with its own buffers, the dictionaries are replaced by what
their entry `as_bytes` contains (or the deserialization fails because of that entry), no buffer is left over, and the
threshold does not matter. Missing: dictionaries with the key `__pickle5_custom__` alone (see `C18_violated`). -/
theorem C18_markers_partial (thr : Nat) (o : Obj) (h : TakesNone o) :
    (serialize thr o).bufs.buffers = (frames o).flatMap (fun f => f.2.filter fun b => decide (thr ≤ b.length)) ∧
    deserialize (serialize thr o) = (seen o).map (·, []) := by
  refine ⟨?_, deserialize_seen thr o h⟩
  have := encode_buffers thr o ⟨[], []⟩
  simp only [List.nil_append] at this
  exact this

/-- A dictionary with a marker key in front of an array: the array keeps its buffers, the dictionary is lost. -/
def exMarked : Obj := .list [.dict [(.str "__cloud_custom__", .scalar .none), (.str "as_bytes", .scalar (.bytes (.leaf (.pickle 7)))),
  (.int 3, .frame 1 [[9, 9]])], .frame 0 [[5, 6], [7]]]

example : TakesNone exMarked := by simp [exMarked, TakesNone, TakesNoneList, TakesNoneDict, hasKey]
example : deserialize (serialize 2 exMarked) = .ok (.list [.leaf (.pickle 7), .frame 0 [[5, 6], [7]]], []) := rfl
example : (serialize 2 exMarked).bufs.buffers = [[9, 9], [5, 6]] := rfl
example : deserialize (serialize 2 (.list [.dict [(.str "__pickle_custom__", .scalar .none)], .frame 0 [[5, 6]]])) = .error .keyError := rfl

end Verif.Props
