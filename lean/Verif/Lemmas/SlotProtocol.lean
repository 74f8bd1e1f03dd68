import Verif.Model.SlotProtocol

namespace Verif.Slot

/-- Words after `k` of the eight writes of deletion and publication. -/
def wordsAt (old : Words) (id : DataId) (first : Nat) (extra : Nat) : Nat → Words
  | 0 => old
  | 1 => ⟨-1, old.number, old.first, old.refs⟩
  | 2 => ⟨-1, -1, old.first, old.refs⟩
  | 3 => ⟨-1, -1, -1, old.refs⟩
  | 4 => ⟨-1, -1, -1, -1⟩
  | 5 => ⟨-1, -1, first, -1⟩
  | 6 => ⟨-1, -1, first, 1⟩
  | 7 => ⟨-1, id.num, first, 1⟩
  | _ => ⟨id.rank, id.num, first, 1 + extra⟩

/-- Invariant of the interleaving: `tgt` is what the reader looks for, `id` what is published. -/
structure PInv (old : Words) (id : DataId) (first : Nat) (tgt : DataId) (s : St) (k : Nat) : Prop where
  le : k ≤ 8
  todo : s.todo = (deleteWrites ++ publishWrites id first).drop k
  words : s.words = wordsAt old id first s.extra k
  extra : k < 8 → s.extra = 0
  rd : ∀ w, s.reader = .readWorker w → w = tgt.rank → old.worker = tgt.rank ∨ (k = 8 ∧ id.rank = tgt.rank)
  acc : s.reader = .done true →
    (old.worker = tgt.rank ∧ old.number = tgt.num) ∨
    (7 ≤ k ∧ id.num = tgt.num ∧ (old.worker = tgt.rank ∨ id.rank = tgt.rank))

theorem cases8 {k : Nat} (h : k ≤ 8) :
    k = 0 ∨ k = 1 ∨ k = 2 ∨ k = 3 ∨ k = 4 ∨ k = 5 ∨ k = 6 ∨ k = 7 ∨ k = 8 := by omega

theorem pinv_step {old : Words} {id : DataId} {first : Nat} {tgt : DataId} {s : St} {k : Nat} (a : Act)
    (h : PInv old id first tgt s k) : ∃ k', PInv old id first tgt (step tgt s a) k' := by
  obtain ⟨le, todo, words, extra, rd, acc⟩ := h
  cases a with
  | write =>
    rcases cases8 le with rfl | rfl | rfl | rfl | rfl | rfl | rfl | rfl | rfl
    case inr.inr.inr.inr.inr.inr.inr.inr =>
      refine ⟨8, ?_⟩
      have : step tgt s .write = s := by simp [step, todo, deleteWrites, publishWrites]
      rw [this]
      exact ⟨le, todo, words, extra, rd, acc⟩
    all_goals
      have he := extra (by omega)
      simp [deleteWrites, publishWrites] at todo
      simp only [wordsAt] at words
      simp only [step, todo]
    case inl => exact ⟨1, ⟨by omega, rfl, by simp [W.apply, words, wordsAt], fun _ => he,
        fun w h1 h2 => by have := rd w h1 h2; omega, fun h1 => by have := acc h1; omega⟩⟩
    case inr.inl => exact ⟨2, ⟨by omega, rfl, by simp [W.apply, words, wordsAt], fun _ => he,
        fun w h1 h2 => by have := rd w h1 h2; omega, fun h1 => by have := acc h1; omega⟩⟩
    case inr.inr.inl => exact ⟨3, ⟨by omega, rfl, by simp [W.apply, words, wordsAt], fun _ => he,
        fun w h1 h2 => by have := rd w h1 h2; omega, fun h1 => by have := acc h1; omega⟩⟩
    case inr.inr.inr.inl => exact ⟨4, ⟨by omega, rfl, by simp [W.apply, words, wordsAt], fun _ => he,
        fun w h1 h2 => by have := rd w h1 h2; omega, fun h1 => by have := acc h1; omega⟩⟩
    case inr.inr.inr.inr.inl => exact ⟨5, ⟨by omega, rfl, by simp [W.apply, words, wordsAt], fun _ => he,
        fun w h1 h2 => by have := rd w h1 h2; omega, fun h1 => by have := acc h1; omega⟩⟩
    case inr.inr.inr.inr.inr.inl => exact ⟨6, ⟨by omega, rfl, by simp [W.apply, words, wordsAt], fun _ => he,
        fun w h1 h2 => by have := rd w h1 h2; omega, fun h1 => by have := acc h1; omega⟩⟩
    case inr.inr.inr.inr.inr.inr.inl => exact ⟨7, ⟨by omega, rfl, by simp [W.apply, words, wordsAt], fun _ => he,
        fun w h1 h2 => by have := rd w h1 h2; omega, fun h1 => by have := acc h1; omega⟩⟩
    case inr.inr.inr.inr.inr.inr.inr.inl => exact ⟨8, ⟨by omega, rfl, by simp [W.apply, words, wordsAt, he], fun _ => he,
        fun w h1 h2 => by have := rd w h1 h2; omega, fun h1 => by have := acc h1; omega⟩⟩
  | read =>
    refine ⟨k, ?_⟩
    simp only [step]
    split
    · refine ⟨le, todo, words, extra, ?_, by simp⟩
      intro w hw h2
      simp only [Reader.readWorker.injEq] at hw
      subst hw
      rw [words] at h2
      rcases cases8 le with rfl | rfl | rfl | rfl | rfl | rfl | rfl | rfl | rfl <;> simp only [wordsAt] at h2 <;> omega
    · rename_i w hw
      refine ⟨le, todo, words, extra, by simp, ?_⟩
      intro hacc
      simp only [Reader.done.injEq, Bool.and_eq_true, beq_iff_eq] at hacc
      obtain ⟨h1, h2⟩ := hacc
      have h3 := rd w hw h1
      rw [words] at h2
      rcases cases8 le with rfl | rfl | rfl | rfl | rfl | rfl | rfl | rfl | rfl <;> simp only [wordsAt] at h2 <;> omega
    · rename_i b hb
      exact ⟨le, todo, words, extra, by simp, fun h1 => acc (by rw [hb]; exact h1)⟩
  | incr =>
    refine ⟨k, ?_⟩
    simp only [step]
    split
    · rename_i ht
      have hk : k = 8 := by
        rcases cases8 le with rfl | rfl | rfl | rfl | rfl | rfl | rfl | rfl | rfl <;>
          first | rfl | (exfalso; rw [ht] at todo; simp [deleteWrites, publishWrites] at todo)
      subst hk
      refine ⟨le, by rw [← todo, ht], ?_, by omega, rd, acc⟩
      simp only [wordsAt] at words ⊢
      rw [words]
      simp only [Words.mk.injEq, true_and]
      omega
    · exact ⟨le, todo, words, extra, rd, acc⟩
  | decr =>
    refine ⟨k, ?_⟩
    simp only [step]
    split
    · rename_i ht
      have hk : k = 8 := by
        rcases cases8 le with rfl | rfl | rfl | rfl | rfl | rfl | rfl | rfl | rfl <;>
          first | rfl | (exfalso; rw [ht] at todo; simp [deleteWrites, publishWrites] at todo)
      subst hk
      split
      · refine ⟨le, by rw [← todo, ht], ?_, by omega, rd, acc⟩
        simp only [wordsAt] at words ⊢
        rw [words]
        simp only [Words.mk.injEq, true_and]
        omega
      · exact ⟨le, todo, words, extra, rd, acc⟩
    · exact ⟨le, todo, words, extra, rd, acc⟩

theorem pinv_run {old : Words} {id : DataId} {first : Nat} {tgt : DataId} (acts : List Act) :
    ∀ {s : St} {k : Nat}, PInv old id first tgt s k → ∃ k', PInv old id first tgt (run tgt s acts) k' := by
  induction acts with
  | nil => intro s k h; exact ⟨k, h⟩
  | cons a t ih =>
    intro s k h
    obtain ⟨k', h'⟩ := pinv_step a h
    exact ih h'

theorem pinv_start (old : Words) (id : DataId) (first : Nat) (tgt : DataId) :
    PInv old id first tgt (startSt old id first) 0 :=
  ⟨by omega, rfl, rfl, fun _ => rfl, by simp [startSt], by simp [startSt]⟩

/-- Invariant of the life of a slot. -/
structure LInv (s : Life) : Prop where
  cases : (s.words = emptyWords ∧ s.holders = [] ∧ s.checked = []) ∨
    ∃ id : DataId, holds s.words id = true ∧ (∀ x ∈ s.holders, x = id) ∧ (∀ x ∈ s.checked, x = id) ∧
      s.words.refs = s.holders.length

theorem holds_unique {w : Words} {a b : DataId} (h1 : holds w a = true) (h2 : holds w b = true) : a = b := by
  simp only [holds, Bool.and_eq_true, beq_iff_eq] at h1 h2
  cases a; cases b
  simp only [DataId.mk.injEq]
  simp only at h1 h2
  omega

theorem holds_empty (id : DataId) : holds emptyWords id = false := by
  simp only [holds, emptyWords]
  have : ((-1 : Int) == (id.rank : Int)) = false := by simp
  simp [this]

theorem linv_step {s : Life} {op : Op} (h : LInv s) (hq : (∃ id, op = .cleanup id) → s.checked = []) :
    LInv (s.step op) := by
  obtain ⟨h⟩ := h
  cases op with
  | publish id first =>
    simp only [Life.step]
    split
    · rename_i he
      rcases h with ⟨h1, h2, h3⟩ | ⟨id0, h1, -⟩
      · exact ⟨Or.inr ⟨id, by simp [holds], by simp [h2], by simp [h3], by simp [h2]⟩⟩
      · simp only [holds, Bool.and_eq_true, beq_iff_eq] at h1; omega
    · exact ⟨h⟩
  | check id =>
    simp only [Life.step]
    split
    · rename_i hh
      rcases h with ⟨h1, h2, h3⟩ | ⟨id0, h1, h2, h3, h4⟩
      · rw [h1, holds_empty] at hh; simp at hh
      · have := holds_unique h1 hh
        subst this
        refine ⟨Or.inr ⟨id0, h1, h2, ?_, h4⟩⟩
        intro x hx
        rcases List.mem_cons.1 hx with rfl | hx
        · rfl
        · exact h3 x hx
    · exact ⟨h⟩
  | incr id =>
    simp only [Life.step]
    split
    · rename_i hh
      rcases h with ⟨h1, h2, h3⟩ | ⟨id0, h1, h2, h3, h4⟩
      · rw [h3] at hh; simp at hh
      · have := h3 id hh
        subst this
        refine ⟨Or.inr ⟨id, h1, ?_, ?_, ?_⟩⟩
        · intro x hx
          rcases List.mem_cons.1 hx with rfl | hx
          · rfl
          · exact h2 x hx
        · intro x hx; exact h3 x (List.mem_of_mem_erase hx)
        · simp [h4]
    · exact ⟨h⟩
  | finalize id =>
    simp only [Life.step]
    split
    · rename_i hh
      rcases h with ⟨h1, h2, h3⟩ | ⟨id0, h1, h2, h3, h4⟩
      · rw [h2] at hh; simp at hh
      · have := h2 id hh
        subst this
        refine ⟨Or.inr ⟨id, ?_, ?_, h3, ?_⟩⟩
        · simp only [h1, if_true]; exact h1
        · intro x hx; exact h2 x (List.mem_of_mem_erase hx)
        · have hpos : 0 < s.holders.length := List.length_pos_of_mem hh
          simp only [h1, if_true, List.length_erase_of_mem hh, h4]
          omega
    · exact ⟨h⟩
  | cleanup id =>
    have hck := hq ⟨id, rfl⟩
    simp only [Life.step]
    split
    · rename_i hh
      rcases h with ⟨h1, h2, h3⟩ | ⟨id0, h1, h2, h3, h4⟩
      · exact ⟨Or.inl ⟨rfl, h2, h3⟩⟩
      · refine ⟨Or.inl ⟨rfl, ?_, hck⟩⟩
        rw [h4] at hh
        have : s.holders.length = 0 := by omega
        simpa using this
    · exact ⟨h⟩

theorem linv_run (ops : List Op) : ∀ {s : Life}, LInv s → QuietCleanups s ops → LInv (s.run ops) := by
  induction ops with
  | nil => intro s h _; exact h
  | cons op t ih =>
    intro s h hq
    cases op with
    | cleanup id => exact ih (linv_step h (fun _ => hq.1)) hq.2
    | publish id f => exact ih (linv_step h (by simp)) hq
    | check id => exact ih (linv_step h (by simp)) hq
    | incr id => exact ih (linv_step h (by simp)) hq
    | finalize id => exact ih (linv_step h (by simp)) hq

/-- Objects published in a history. -/
def published (ops : List Op) : List DataId :=
  ops.filterMap fun
    | .publish id _ => some id
    | _ => none

/-- The count is at least the number of registrations; `fut` are objects that were never in the slot. -/
structure Covers (fut : List DataId) (s : Life) : Prop where
  le : ∀ id, holds s.words id = true → (s.holders.count id : Int) ≤ s.words.refs
  fut : ∀ id ∈ fut, id ∉ s.holders ∧ id ∉ s.checked ∧ holds s.words id = false

theorem covers_step {fut : List DataId} {s : Life} {op : Op} (hn : (published [op] ++ fut).Nodup) (h : Covers (published [op] ++ fut) s) :
    Covers fut (s.step op) := by
  cases op with
  | publish id first =>
    simp only [published, List.filterMap_cons, List.filterMap_nil, List.singleton_append, List.nodup_cons] at hn h
    have hid := h.fut id List.mem_cons_self
    simp only [Life.step]
    split
    · refine ⟨fun x hx => ?_, fun x hx => ?_⟩
      · have : x = id := by
          simp only [holds, Bool.and_eq_true, beq_iff_eq] at hx
          cases x; cases id; simp only [DataId.mk.injEq]; simp only at hx; omega
        subst this
        simp only [List.count_cons_self, List.count_eq_zero_of_not_mem hid.1]
        omega
      · have hx' := h.fut x (List.mem_cons_of_mem _ hx)
        have hne : x ≠ id := fun e => hn.1 (e ▸ hx)
        refine ⟨by simp [hne, hx'.1], hx'.2.1, ?_⟩
        rw [Bool.eq_false_iff]
        intro hh
        apply hne
        simp only [holds, Bool.and_eq_true, beq_iff_eq] at hh
        cases x; cases id; simp only [DataId.mk.injEq]; simp only at hh; omega
    · exact ⟨h.le, fun x hx => h.fut x (List.mem_cons_of_mem _ hx)⟩
  | check id =>
    simp only [published, List.filterMap_cons, List.filterMap_nil, List.nil_append] at hn h
    simp only [Life.step]
    split
    · rename_i hh
      refine ⟨h.le, fun x hx => ⟨(h.fut x hx).1, ?_, (h.fut x hx).2.2⟩⟩
      have : x ≠ id := by rintro rfl; rw [(h.fut x hx).2.2] at hh; cases hh
      simp [this, (h.fut x hx).2.1]
    · exact h
  | incr id =>
    simp only [published, List.filterMap_cons, List.filterMap_nil, List.nil_append] at hn h
    simp only [Life.step]
    split
    · rename_i hh
      refine ⟨fun x hx => ?_, fun x hx => ⟨?_, fun hc => (h.fut x hx).2.1 (List.mem_of_mem_erase hc), (h.fut x hx).2.2⟩⟩
      · have := h.le x hx
        simp only [List.count_cons]
        split <;> omega
      · have : x ≠ id := by rintro rfl; exact (h.fut x hx).2.1 hh
        simp [this, (h.fut x hx).1]
    · exact h
  | finalize id =>
    simp only [published, List.filterMap_cons, List.filterMap_nil, List.nil_append] at hn h
    simp only [Life.step]
    split
    · rename_i hh
      refine ⟨fun x hx => ?_, fun x hx => ⟨fun hc => (h.fut x hx).1 (List.mem_of_mem_erase hc), (h.fut x hx).2.1, ?_⟩⟩
      · by_cases hid : holds s.words id = true
        · simp only [hid, if_true] at hx ⊢
          have hx' : holds s.words x = true := hx
          have e := holds_unique hid hx'
          subst e
          have := h.le id hx'
          have hpos := List.count_pos_iff.2 hh
          rw [List.count_erase_self]
          omega
        · have hid' : holds s.words id = false := by simpa using hid
          simp only [hid', Bool.false_eq_true, if_false] at hx ⊢
          have hne : x ≠ id := by rintro rfl; exact hid hx
          rw [List.count_erase_of_ne hne]
          exact h.le x hx
      · split <;> exact (h.fut x hx).2.2
    · exact h
  | cleanup id =>
    simp only [published, List.filterMap_cons, List.filterMap_nil, List.nil_append] at hn h
    simp only [Life.step]
    split
    · refine ⟨fun x hx => ?_, fun x hx => ⟨(h.fut x hx).1, (h.fut x hx).2.1, holds_empty x⟩⟩
      rw [holds_empty] at hx; cases hx
    · exact h

theorem covers_run : ∀ (ops : List Op) {s : Life}, (published ops).Nodup → Covers (published ops) s → Covers [] (s.run ops)
  | [], _, _, h => h
  | op :: ops, s, hn, h => by
      have e : published (op :: ops) = published [op] ++ published ops := by
        simp only [published, List.filterMap_cons, List.filterMap_nil]
        split <;> rfl
      rw [e] at hn h
      exact covers_run ops (List.nodup_append.1 hn).2.1 (covers_step hn h)

end Verif.Slot
