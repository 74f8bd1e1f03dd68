import Verif.Lemmas.Serialization

/-! Properties C17, C18, C19: serialization of nested objects. -/
namespace Verif.Props
open Verif.Serial

/-- C17, full statement. -/
def C17_full : Prop := ∀ (thr : Nat) (o : Obj), ∃ rest, deserialize (serialize thr o) = .ok (o, rest)

/-- The code violates C17: a dictionary with the key `"__cloud_custom__"` cannot be read back. -/
theorem C17_violated : ¬ C17_full := by
  intro h
  obtain ⟨rest, h⟩ := h 10 (.dict [(.str "__cloud_custom__", .scalar (.int 1))])
  have e : deserialize (serialize 10 (.dict [(.str "__cloud_custom__", .scalar (.int 1))])) = .error .keyError := by rfl
  rw [e] at h
  cases h

/-- The code violates C17: a dictionary with a marker key and pickled bytes is silently replaced by the unpickled
object. -/
theorem C17_silently_replaced_violated : ∃ (o o' : Obj), deserialize (serialize 10 o) = .ok (o', []) ∧
    o = .dict [(.str "__pickle_custom__", .scalar .none), (.str "as_bytes", .scalar (.bytes (.leaf (.pickle 7))))] ∧
    o' = .leaf (.pickle 7) := ⟨_, _, rfl, rfl, rfl⟩

/-- The code violates C17: a `bytearray` comes back as `bytes` (msgpack packs both alike). -/
theorem C17_bytearray_violated (thr : Nat) (b : Blob) :
    deserialize (serialize thr (.byteArray b)) = .ok (.scalar (.bytes b), []) := rfl

/-- C17, proved part: every object without marker keys and `bytearray`s survives, at any nesting and threshold.
Missing: objects with marker keys or `bytearray`s (see the violations). -/
theorem C17_roundtrip_partial (thr : Nat) (o : Obj) (h : Clean o) :
    ∃ rest, deserialize (serialize thr o) = .ok (o, rest) := ⟨[], deserialize_serialize thr o h⟩

/-- A nested object with a large and a small buffer. -/
def sample : Obj :=
  .dict [(.str "a", .list [.frame 1 [[1, 2, 3], [4]], .scalar (.int 5), .leaf (.pickle 3)]), (.int 2, .frame 2 [[6, 7, 8, 9]])]

theorem sample_clean : Clean sample := by simp [sample, Clean, CleanList, CleanDict]

example : deserialize (serialize 2 sample) = .ok (sample, []) ∧ (serialize 2 sample).bufs = ⟨[[1, 2, 3], [6, 7, 8, 9]], [1, 1]⟩ :=
  ⟨rfl, rfl⟩

/-- C18, full statement: all arrays and data frames come back with their buffers. -/
def C18_full : Prop := ∀ (thr : Nat) (o : Obj),
  ∃ o' rest, deserialize (serialize thr o) = .ok (o', rest) ∧ frames o' = frames o

/-- The code violates C18: a dictionary with a marker key in front takes away the buffers of the array behind it. -/
theorem C18_violated : ¬ C18_full := by
  intro h
  obtain ⟨o', rest, h, -⟩ := h 1 (.list [.dict [(.str "__pickle5_custom__", .scalar (.bool true)),
    (.str "as_bytes", .scalar (.bytes (.leaf (.pickle 7))))], .frame 0 [[5]]])
  have e : deserialize (serialize 1 (.list [.dict [(.str "__pickle5_custom__", .scalar (.bool true)),
    (.str "as_bytes", .scalar (.bytes (.leaf (.pickle 7))))], .frame 0 [[5]]])) = .error .unpickling := by rfl
  rw [e] at h
  cases h

/-- C18, proved part: without marker keys the out-of-band buffers are exactly the large buffers of all arrays and
frames in order, each comes back in the array it belongs to, and no buffer is left over.
Missing: objects with marker keys (see `C18_violated`). -/
theorem C18_buffers_partial (thr : Nat) (o : Obj) (h : Clean o) :
    (serialize thr o).bufs.buffers = (frames o).flatMap (fun f => f.2.filter fun b => decide (thr ≤ b.length)) ∧
    ∃ o', deserialize (serialize thr o) = .ok (o', []) ∧ frames o' = frames o := by
  refine ⟨?_, o, deserialize_serialize thr o h, rfl⟩
  have := encode_buffers thr o ⟨[], []⟩
  simp only [List.nil_append] at this
  exact this

example : frames sample = [(1, [[1, 2, 3], [4]]), (2, [[6, 7, 8, 9]])] := rfl

/-- C19, full statement: every use of a stored object observes the object (objects that survive serialization at
all). -/
def C19_full : Prop := ∀ (thr : Nat) (o : Obj) (us : List Use), Clean o → ∀ r ∈ (Entry.put thr o).run us, r = .ok o

/-- The code violates C19: after one local read, an array with a large buffer cannot be forwarded any more. -/
theorem C19_violated : ¬ C19_full := by
  intro h
  have := h 1 (.frame 0 [[5]]) [.read, .forward] (by simp [Clean]) (.error .unpickling) (List.mem_cons_of_mem _ (List.mem_cons_self ..))
  cases this

/-- Runs from the state after the first read, if nothing is left to lose. -/
theorem run_after_read (o : Obj) (p : Package) (hp : deserialize p = .ok (o, []))
    (us : List Use) : ∀ r ∈ Entry.run ⟨p, some o⟩ us, r = .ok o := by
  induction us with
  | nil => simp [Entry.run]
  | cons u t ih =>
    cases u
    · simp only [Entry.run, Entry.read, List.mem_cons]
      rintro r (rfl | h)
      · rfl
      · exact ih r h
    · simp only [Entry.run, List.mem_cons]
      rintro r (rfl | h)
      · simp [Entry.forward, hp, Except.map]
      · exact ih r h

/-- C19, proved part: all uses observe the object if it has no buffer of at least `thr` bytes.
Missing: objects with out-of-band buffers that are forwarded after a read (see `C19_violated`). -/
theorem C19_small_objects_partial (thr : Nat) (o : Obj) (us : List Use) (hc : Clean o)
    (hb : ∀ f ∈ frames o, ∀ b ∈ f.2, b.length < thr) : ∀ r ∈ (Entry.put thr o).run us, r = .ok o := by
  have hd := deserialize_serialize thr o hc
  have he : (serialize thr o).bufs.buffers = [] := by
    have := encode_buffers thr o ⟨[], []⟩
    simp only [serialize, this, List.nil_append, List.flatMap_eq_nil_iff, List.filter_eq_nil_iff]
    intro f hf b hbm
    have := hb f hf b hbm
    simp only [outOfBand, decide_eq_true_eq]
    omega
  induction us with
  | nil => simp [Entry.run]
  | cons u t ih =>
    cases u
    · simp only [Entry.run, Entry.put, Entry.read, hd, List.mem_cons]
      rintro r (rfl | h)
      · rfl
      · refine run_after_read o _ ?_ t r h
        have : (⟨(serialize thr o).sData, ⟨[], (serialize thr o).bufs.counts⟩⟩ : Package) = serialize thr o := by
          cases hh : serialize thr o with
          | mk w b =>
            rw [hh] at he
            cases b with
            | mk x y => simp_all
        rw [this, hd]
    · simp only [Entry.run, List.mem_cons]
      rintro r (rfl | h)
      · simp [Entry.forward, Entry.put, hd, Except.map]
      · exact ih r h

/-- C19, proved part: for every object, forwards before the first local read and all local reads observe the object. -/
theorem C19_reads_partial (thr : Nat) (o : Obj) (n : Nat) (m : Nat) (hc : Clean o) :
    ∀ r ∈ (Entry.put thr o).run (List.replicate n .forward ++ List.replicate m .read), r = .ok o := by
  have hd := deserialize_serialize thr o hc
  have hread : ∀ (k : Nat) (p : Package), ∀ r ∈ Entry.run ⟨p, some o⟩ (List.replicate k .read), r = .ok o := by
    intro k p
    induction k with
    | zero => simp [Entry.run]
    | succ k ih =>
      rw [List.replicate_succ]
      simp only [Entry.run, Entry.read, List.mem_cons]
      rintro r (rfl | h)
      · rfl
      · exact ih r h
  induction n with
  | zero =>
    simp only [List.replicate_zero, List.nil_append]
    cases m with
    | zero => simp [Entry.run]
    | succ m =>
      rw [List.replicate_succ]
      simp only [Entry.run, Entry.put, Entry.read, hd, List.mem_cons]
      rintro r (rfl | h)
      · rfl
      · exact hread m _ r h
  | succ n ih =>
    rw [List.replicate_succ, List.cons_append]
    simp only [Entry.run, List.mem_cons]
    rintro r (rfl | h)
    · simp [Entry.forward, Entry.put, hd, Except.map]
    · exact ih r h

example : (Entry.put 9 sample).run [.read, .forward, .read, .forward] = List.replicate 4 (.ok sample) := rfl

end Verif.Props
