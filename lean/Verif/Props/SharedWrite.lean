import Verif.Model.SharedWrite
import Verif.Props.Memcopy
import Verif.Props.SharedBuffer

/-! Properties of writing objects into shared memory with the real copy of their buffers (C124). -/
namespace Verif.Props
open Verif.Shm Verif.SharedBuffer Verif.Memcopy Verif.SharedWrite

/-- The buffer lies in the address space. -/
def Placed (b : Raw) : Prop := 0 ≤ b.addr ∧ b.addr + b.bytes.length < 2 ^ 63

/-- Some multiple of 64 is an address of the buffer or the address after its end. -/
def Touches (b : Raw) : Prop := ∃ k : Int, b.addr ≤ 64 * k ∧ 64 * k ≤ b.addr + b.bytes.length

/-- The write ends with the shared info, the object can be read back, and no byte outside the reserved range is changed. -/
def WrittenExactly (sched : List Copy → List Copy) (m : Mem) (r : Resv) (d : Item) : Prop :=
  ∃ info m', writeItem sched m r d = (.written info, m') ∧
    read m' r.first info = ⟨d.sData, d.raw.map Raw.bytes, d.bufferCount⟩ ∧ ∀ j, j < r.first ∨ r.last ≤ j → m' j = m j

/-- **C124**, full statement: every object that fits into its reservation is written exactly, whatever the lengths and addresses of
its buffers and whatever the order of the threads. -/
def C124_full : Prop :=
  ∀ (sched : List Copy → List Copy) (m : Mem) (r : Resv) (d : Item), (∀ l, (sched l).Perm l) → (∀ b ∈ d.raw, Placed b) →
    r.first + (d.sData.length + (d.raw.map (·.bytes.length)).sum) ≤ r.last → WrittenExactly sched m r d

/-- The code violates C124: an empty buffer, as of an empty array, raises an `IndexError`. -/
theorem C124_empty_violated (sched : List Copy → List Copy) (m : Mem) (addr : Int) :
    (writeItem sched m ⟨0, 10, 0⟩ ⟨[1, 2], [⟨addr, []⟩], [1]⟩).1 = .indexError := by
  rfl

/-- The code violates C124: a buffer of one byte at an odd address is undefined behaviour. -/
theorem C124_short_violated : (writeItem id (fun _ => 0) ⟨0, 10, 0⟩ ⟨[1, 2], [⟨1, [5]⟩], [1]⟩).1 = .undefined := by
  decide +kernel

theorem C124_violated : ¬ C124_full := by
  intro h
  obtain ⟨info, m', h1, -⟩ := h id (fun _ => 0) ⟨0, 10, 0⟩ ⟨[1, 2], [⟨0, []⟩], [1]⟩ (fun _ => .refl _)
    (by simp [Placed]) (by decide)
  cases h1

private theorem touches_aligned {b : Raw} : Touches b ↔ left b.addr ≤ right0 b.addr b.bytes.length := by
  simp only [Touches, left, right0, alignDown, block]
  constructor
  · rintro ⟨k, h1, h2⟩; omega
  · intro h
    exact ⟨(b.addr + 64 - 1) / 64, by omega, by omega⟩

/-- The copy of a buffer that touches a multiple of 64 is what `writeAt` says. -/
private theorem copy_good {sched : List Copy → List Copy} (hs : ∀ l, (sched l).Perm l) {b : Raw} (hp : Placed b) (ht : Touches b)
    (m : Mem) (pos : Nat) :
    ∃ d, runCopies b.bytes.length b.buf (sched (copies b.addr b.bytes.length 6)) (window m pos) = some d ∧
      SharedWrite.store m pos d = writeAt m pos b.bytes := by
  obtain ⟨d, h1, h2⟩ := C16_exact_copy_partial b.addr b.bytes.length 6 b.buf (window m pos) _ (by decide) hp.1 hp.2
    (.inr (touches_aligned.1 ht)) (hs _)
  refine ⟨d, h1, ?_⟩
  funext k
  simp only [SharedWrite.store, writeAt]
  by_cases hk : pos ≤ k
  · rw [if_pos hk, h2]
    by_cases hb : k < pos + b.bytes.length
    · rw [if_pos (by omega), if_pos ⟨hk, hb⟩]
      simp [Raw.buf]
    · rw [if_neg (by omega), if_neg (by omega)]
      simp only [window, Int.toNat_natCast]
      congr 1
      omega
  · rw [if_neg hk, if_neg (by omega)]

/-- The copy of a buffer that touches no multiple of 64 is undefined. -/
private theorem copy_bad {sched : List Copy → List Copy} (hs : ∀ l, (sched l).Perm l) {b : Raw}
    (ht : ¬ Touches b) (d : Buf) :
    runCopies b.bytes.length b.buf (sched (copies b.addr b.bytes.length 6)) d = none := by
  rw [touches_aligned] at ht
  have hlr : right0 b.addr b.bytes.length = left b.addr - 64 := by
    simp only [left, right0, alignDown, block] at ht ⊢
    omega
  have hnb : numBlocks b.addr b.bytes.length % 6 = 3 := by
    simp only [numBlocks, hlr, toUnsigned, block]
    rw [show left b.addr - 64 - left b.addr = -64 by omega]
    decide
  have hr : right b.addr b.bytes.length (6 : Nat) = left b.addr - 256 := by
    simp only [right, hlr]
    rw [show ((6 : Nat) : Int) = 6 from rfl, hnb]
    simp only [block]
    omega
  have hc : chunkSize b.addr b.bytes.length (6 : Nat) = -42 := by
    simp only [chunkSize, hr]
    rw [show left b.addr - 256 - left b.addr = -256 by omega]
    decide
  have hneg : ∃ c ∈ copies b.addr b.bytes.length 6, c.len < 0 := by
    refine ⟨_, List.mem_append_left _ (List.mem_map.2 ⟨0, by decide, rfl⟩), ?_⟩
    show chunkSize b.addr b.bytes.length (6 : Nat) < 0
    rw [hc]; decide
  obtain ⟨c, hc1, hc2⟩ := hneg
  have hc1 := (hs _).mem_iff.2 hc1
  generalize sched (copies b.addr b.bytes.length 6) = l at hc1
  induction l generalizing d with
  | nil => cases hc1
  | cons x l ih =>
    simp only [runCopies]
    rcases List.mem_cons.1 hc1 with rfl | hm
    · have : c.run b.bytes.length b.buf d = none := by
        have hi : ¬ c.inBounds b.bytes.length = true := by
          simp only [Copy.inBounds, Bool.and_eq_true, decide_eq_true_eq]
          omega
        simp only [Copy.run, if_neg hi]
      rw [this]; rfl
    · cases x.run b.bytes.length b.buf d with
      | none => rfl
      | some d' => exact ih d' hm

private theorem raws_good {sched : List Copy → List Copy} (hs : ∀ l, (sched l).Perm l) (last : Nat) (l : List Raw)
    (hl : ∀ b ∈ l, Placed b ∧ b.bytes ≠ [] ∧ Touches b) (m : Mem) (pos : Nat) :
    writeRaws sched m last pos l =
      (if (writeRaw m last pos (l.map Raw.bytes)).1 then none else some .valueError,
        (writeRaw m last pos (l.map Raw.bytes)).2) := by
  induction l generalizing m pos with
  | nil => rfl
  | cons b l ih =>
    simp only [writeRaws, List.map_cons, writeRaw]
    by_cases h : pos + b.bytes.length > last
    · simp [if_pos h]
    · obtain ⟨h1, h2, h3⟩ := hl b (by simp)
      obtain ⟨d, hd1, hd2⟩ := copy_good hs h1 h3 m pos
      rw [if_neg h, if_neg h, if_neg h2, hd1]
      dsimp only
      rw [hd2]
      exact ih (fun c hc => hl c (by simp [hc])) _ _

/-- **C124**, proved part: if no buffer is empty and each touches a multiple of 64, the object is written exactly when it fits and
refused with a `ValueError` when it does not, in every order of the threads, and no byte outside the reserved range is changed.
Missing: empty buffers, and short ones between two multiples of 64. -/
theorem C124_good_partial (sched : List Copy → List Copy) (m : Mem) (r : Resv) (d : Item) (hs : ∀ l, (sched l).Perm l)
    (hg : ∀ b ∈ d.raw, Placed b ∧ b.bytes ≠ [] ∧ Touches b) :
    (r.first + (d.sData.length + (d.raw.map (·.bytes.length)).sum) ≤ r.last → WrittenExactly sched m r d) ∧
    (r.last < r.first + (d.sData.length + (d.raw.map (·.bytes.length)).sum) → (writeItem sched m r d).1 = .valueError ∧
      ∀ j, j < r.first ∨ r.last ≤ j → (writeItem sched m r d).2 j = m j) := by
  have hmap : d.plain.rawBuffers.map List.length = d.raw.map (·.bytes.length) := by simp [Item.plain]
  have key : writeItem sched m r d = (match (write m r d.plain).1 with
      | some info => .written info | none => .valueError, (write m r d.plain).2) := by
    obtain ⟨sData, raw, count⟩ := d
    show writeItem sched m r ⟨sData, raw, count⟩ = (match (write m r ⟨sData, raw.map Raw.bytes, count⟩).1 with
      | some info => .written info | none => .valueError, (write m r ⟨sData, raw.map Raw.bytes, count⟩).2)
    simp only [writeItem, write] at hg ⊢
    by_cases h : r.first + sData.length > r.last
    · simp only [if_pos h]
    · simp only [if_neg h, raws_good hs r.last raw hg]
      rcases writeRaw (writeAt m r.first sData) r.last (r.first + sData.length) (raw.map Raw.bytes) with ⟨ok, m2⟩
      cases ok <;> simp
  have h9 := C09_oversized_write_refused m r d.plain
  rw [hmap] at h9
  constructor
  · intro hf
    cases hw : (write m r d.plain).1 with
    | none =>
      have := h9.1.1 hw
      have e : d.plain.sData = d.sData := rfl
      rw [e] at this
      omega
    | some info =>
      have h8 := C08_write_read_roundtrip m r d.plain info (write m r d.plain).2 (by rw [← hw])
      exact ⟨info, _, by rw [key, hw], h8.1, h8.2.2⟩
  · intro hf
    have hw := h9.1.2 hf
    rw [key, hw]
    exact ⟨rfl, h9.2⟩

/-- Which objects that fit are written: exactly those without an empty buffer or a buffer between two multiples of 64. -/
theorem C124_exactly_partial (sched : List Copy → List Copy) (m : Mem) (r : Resv) (d : Item) (hs : ∀ l, (sched l).Perm l)
    (hp : ∀ b ∈ d.raw, Placed b) (hf : r.first + (d.sData.length + (d.raw.map (·.bytes.length)).sum) ≤ r.last) :
    WrittenExactly sched m r d ↔ ∀ b ∈ d.raw, b.bytes ≠ [] ∧ Touches b := by
  constructor
  · rintro ⟨info, m', h, -⟩
    have hn : ∀ (l : List Raw) (m : Mem) (pos : Nat), (writeRaws sched m r.last pos l).1 = none →
        ∀ b ∈ l, b.bytes ≠ [] ∧ Touches b := by
      intro l
      induction l with
      | nil => intro _ _ _ b hb; cases hb
      | cons c l ih =>
        intro m pos hw
        simp only [writeRaws] at hw
        split at hw
        · cases hw
        · split at hw
          · cases hw
          · rename_i hc
            by_cases ht : Touches c
            · split at hw
              · cases hw
              · intro b hb
                rcases List.mem_cons.1 hb with rfl | hb
                · exact ⟨hc, ht⟩
                · exact ih _ _ hw b hb
            · rw [copy_bad hs ht] at hw
              cases hw
    simp only [writeItem] at h
    split at h
    · cases h
    · split at h <;> rename_i hw
      · rename_i e
        exfalso
        simp only [Prod.mk.injEq] at h
        obtain ⟨rfl, -⟩ := h
        -- the loop never ends with the shared info
        have hno : ∀ (l : List Raw) (m : Mem) (pos : Nat), (writeRaws sched m r.last pos l).1 ≠ some (.written info) := by
          intro l
          induction l with
          | nil => intro _ _ h; cases h
          | cons c l ih =>
            intro m pos h
            simp only [writeRaws] at h
            split at h
            · cases h
            · split at h
              · cases h
              · split at h
                · cases h
                · exact ih _ _ h
        exact hno _ _ _ (by rw [hw])
      · exact hn _ _ _ (by rw [hw])
  · intro hg
    exact (C124_good_partial sched m r d hs fun b hb => ⟨hp b hb, hg b hb⟩).1 hf

/-- With a threshold of at least 63 bytes for out-of-band buffers every object that fits is written exactly. -/
theorem C124_threshold_partial (sched : List Copy → List Copy) (m : Mem) (r : Resv) (d : Item) (threshold : Int)
    (hs : ∀ l, (sched l).Perm l) (ht : 63 ≤ threshold)
    (hp : ∀ b ∈ d.raw, Placed b) (hb : ∀ b ∈ d.raw, threshold ≤ (b.bytes.length : Int))
    (hf : r.first + (d.sData.length + (d.raw.map (·.bytes.length)).sum) ≤ r.last) : WrittenExactly sched m r d := by
  refine (C124_exactly_partial sched m r d hs hp hf).2 fun b hm => ?_
  have h := hb b hm
  constructor
  · intro e; rw [e] at h; simp at h; omega
  · exact ⟨(b.addr + 63) / 64, by omega, by omega⟩

/-- The bound is sharp: with every smaller threshold there is an object whose write is undefined. -/
theorem C124_sharp_violated (sched : List Copy → List Copy) (m : Mem) (hs : ∀ l, (sched l).Perm l) (len : Nat) (h0 : 0 < len)
    (h : len < 63) : (writeItem sched m ⟨0, 1000, 0⟩ ⟨[1], [⟨1, List.replicate len 0⟩], [1]⟩).1 = .undefined := by
  have hnt : ¬ Touches ⟨1, List.replicate len 0⟩ := by
    rintro ⟨k, h1, h2⟩
    simp only [List.length_replicate] at h1 h2
    omega
  have hne : List.replicate len (0 : UInt8) ≠ [] := by
    intro e
    have := congrArg List.length e
    simp at this
    omega
  have hb := copy_bad hs hnt (window (writeAt m 0 [1]) 1)
  simp only [writeItem, writeRaws]
  rw [if_neg (by decide)]
  rw [if_neg (by simp; omega), if_neg hne]
  simp only [show (0 : Nat) + [(1 : UInt8)].length = 1 from rfl]
  rw [hb]

-- two buffers of 63 and 70 bytes at odd addresses
example : WrittenExactly List.reverse (fun _ => 9) ⟨5, 140, 3⟩
    ⟨[1, 2], [⟨1, List.replicate 63 7⟩, ⟨1001, List.replicate 70 8⟩], [1, 1]⟩ :=
  C124_threshold_partial _ _ _ _ 63 List.reverse_perm (by decide) (by simp [Placed]) (by simp) (by decide)
-- one byte at a multiple of 64
example : (writeItem id (fun _ => 0) ⟨0, 10, 4⟩ ⟨[1, 2], [⟨64, [5]⟩], [1]⟩).1 = .written ⟨2, [1], [1], 4⟩ := by decide +kernel

end Verif.Props
