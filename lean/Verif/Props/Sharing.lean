import Verif.Spec.Sharing

/-! Objects come back with the same references among them (C123). -/
namespace Verif.Props
open Verif.Sharing Verif.Spec

/-! ### Following paths -/

theorem reached_append (h : Heap) (a : Nat) (p q : List Nat) :
    reached h a (p ++ q) = (reached h a p).bind fun b => reached h b q := by
  induction p generalizing a with
  | nil => rfl
  | cons i p ih =>
    simp only [List.cons_append, reached]
    cases (heldBy h a)[i]? with
    | none => rfl
    | some b => exact ih b

theorem heldBy_append {g e : Heap} {a : Nat} (ha : a < g.length) : heldBy (g ++ e) a = heldBy g a := by
  simp only [heldBy, List.getElem?_append_left ha]

theorem reached_lt {g : Heap} (hc : ClosedHeap g) {a : Nat} (ha : a < g.length) {p : List Nat} {b : Nat} (h : reached g a p = some b) :
    b < g.length := by
  induction p generalizing a with
  | nil => simp only [reached, Option.some.injEq] at h; omega
  | cons i p ih =>
    simp only [reached] at h
    split at h
    · rename_i c hcc
      exact ih (hc a c (List.mem_of_getElem? hcc)) h
    · cases h

theorem reached_extend {g e : Heap} (hc : ClosedHeap g) {a : Nat} (ha : a < g.length) (p : List Nat) :
    reached (g ++ e) a p = reached g a p := by
  induction p generalizing a with
  | nil => rfl
  | cons i p ih =>
    simp only [reached, heldBy_append ha]
    cases hi : (heldBy g a)[i]? with
    | none => rfl
    | some b => exact ih (hc a b (List.mem_of_getElem? hi))

theorem lookAt_extend {g e : Heap} (hc : ClosedHeap g) {a : Nat} (ha : a < g.length) (p : List Nat) :
    lookAt (g ++ e) a p = lookAt g a p := by
  simp only [lookAt, reached_extend hc ha]
  cases hr : reached g a p with
  | none => rfl
  | some b => simp only [List.getElem?_append_left (reached_lt hc ha hr)]

theorem lookAt_cons (h : Heap) (a i : Nat) (p : List Nat) :
    lookAt h a (i :: p) = match (heldBy h a)[i]? with | some b => lookAt h b p | none => none := by
  simp only [lookAt, reached]
  cases (heldBy h a)[i]? <;> rfl

theorem lookAt_nil (h : Heap) (a : Nat) : lookAt h a [] = h[a]?.map look := rfl

theorem sameObject_cons_nil {h : Heap} {a i : Nat} {p : List Nat} : SameObject h a (i :: p) [] ↔ reached h a (i :: p) = some a := by
  simp [SameObject, reached]

/-- A faithful copy of the object at `a` in `h`, added to `g`. -/
structure Copied (h : Heap) (a : Nat) (g : Heap) (r : Heap × Nat) : Prop where
  extends_ : ∃ e, r.1 = g ++ e
  closed : ClosedHeap r.1
  inside : r.2 < r.1.length
  fresh : ∀ p b, reached r.1 r.2 p = some b → g.length ≤ b
  looks : ∀ p, lookAt r.1 r.2 p = lookAt h a p
  same : ∀ p q, SameObject r.1 r.2 p q ↔ SameObject h a p q ∧ (p = q ∨ ThroughBox h a p q)

/-- The items of a list, copied one after another. -/
structure CopiedAll (h : Heap) (xs : List Nat) (g : Heap) (r : Heap × List Nat) : Prop where
  extends_ : ∃ e, r.1 = g ++ e
  closed : ClosedHeap r.1
  length : r.2.length = xs.length
  inside : ∀ b ∈ r.2, b < r.1.length
  fresh : ∀ (i b c : Nat) p, r.2[i]? = some b → reached r.1 b p = some c → g.length ≤ c
  apart : ∀ (i j b c d : Nat) p q, r.2[i]? = some b → r.2[j]? = some c → reached r.1 b p = some d → reached r.1 c q = some d → i = j
  looks : ∀ (i b x : Nat) p, r.2[i]? = some b → xs[i]? = some x → lookAt r.1 b p = lookAt h x p
  same : ∀ (i b x : Nat) p q, r.2[i]? = some b → xs[i]? = some x →
    (SameObject r.1 b p q ↔ SameObject h x p q ∧ (p = q ∨ ThroughBox h x p q))

theorem copiedAll_cons {h g : Heap} {x : Nat} {xs : List Nat} {r : Heap × Nat} {r' : Heap × List Nat}
    (h1 : Copied h x g r) (h2 : CopiedAll h xs r.1 r') : CopiedAll h (x :: xs) g (r'.1, r.2 :: r'.2) := by
  obtain ⟨e', he'⟩ := h2.extends_
  obtain ⟨e, he⟩ := h1.extends_
  have hlen : g.length ≤ r.1.length := by rw [he]; simp
  have hlen' : r.1.length ≤ r'.1.length := by rw [he']; simp
  have hreach : ∀ p, reached r'.1 r.2 p = reached r.1 r.2 p := fun p => by rw [he', reached_extend h1.closed h1.inside]
  have hlook : ∀ p, lookAt r'.1 r.2 p = lookAt r.1 r.2 p := fun p => by rw [he', lookAt_extend h1.closed h1.inside]
  have hlt : ∀ p c, reached r'.1 r.2 p = some c → c < r.1.length := fun p c hc => reached_lt h1.closed h1.inside (hreach p ▸ hc)
  refine ⟨⟨e ++ e', by rw [he', he, List.append_assoc]⟩, h2.closed, by simp [h2.length], ?_, ?_, ?_, ?_, ?_⟩
  · intro b hb
    rcases List.mem_cons.1 hb with rfl | hb
    · exact Nat.lt_of_lt_of_le h1.inside hlen'
    · exact h2.inside b hb
  · intro i b c p hi hr
    cases i with
    | zero => simp at hi; subst hi; exact h1.fresh p c (hreach p ▸ hr)
    | succ i => exact Nat.le_trans hlen (h2.fresh i b c p (by simpa using hi) hr)
  · intro i j b c d p q hi hj hp hq
    cases i with
    | zero =>
      cases j with
      | zero => rfl
      | succ j =>
        simp at hi; subst hi
        have a1 := hlt p d hp
        have a2 := h2.fresh j c d q (by simpa using hj) hq
        omega
    | succ i =>
      cases j with
      | zero =>
        simp at hj; subst hj
        have a1 := hlt q d hq
        have a2 := h2.fresh i b d p (by simpa using hi) hp
        omega
      | succ j => rw [h2.apart i j b c d p q (by simpa using hi) (by simpa using hj) hp hq]
  · intro i b y p hi hx
    cases i with
    | zero => simp at hi hx; subst hi hx; rw [hlook, h1.looks]
    | succ i => exact h2.looks i b y p (by simpa using hi) (by simpa using hx)
  · intro i b y p q hi hx
    cases i with
    | zero =>
      simp at hi hx; subst hi hx
      rw [← h1.same]
      simp only [SameObject, hreach]
    | succ i => exact h2.same i b y p q (by simpa using hi) (by simpa using hx)

theorem throughBox_cons {h : Heap} {a i : Nat} {p q : List Nat} {xs : List Nat} (ha : h[a]? = some (.list xs)) {b : Nat} (hb : xs[i]? = some b) :
    ThroughBox h a (i :: p) (i :: q) ↔ ThroughBox h b p q := by
  have hh : heldBy h a = xs := by simp [heldBy, ha]
  constructor
  · rintro ⟨r, p', q', k, n, e1, e2, hl⟩
    cases r with
    | nil => simp [lookAt_nil, ha, look] at hl
    | cons j r =>
      simp only [List.cons_append, List.cons.injEq] at e1 e2
      obtain ⟨rfl, rfl⟩ := e1
      rw [lookAt_cons, hh, hb] at hl
      exact ⟨r, p', q', k, n, rfl, e2.2, hl⟩
  · rintro ⟨r, p', q', k, n, rfl, rfl, hl⟩
    exact ⟨i :: r, p', q', k, n, rfl, rfl, by rw [lookAt_cons, hh, hb]; exact hl⟩

theorem closed_snoc {g : Heap} {as : List Nat} (hc : ClosedHeap g) (ha : ∀ b ∈ as, b < g.length) : ClosedHeap (g ++ [.list as]) := by
  intro i b hb
  rw [List.length_append]
  by_cases hi : i < g.length
  · rw [heldBy_append hi] at hb
    have := hc i b hb; omega
  · by_cases hi' : i = g.length
    · subst hi'
      simp only [heldBy, List.getElem?_append_right (Nat.le_refl _), Nat.sub_self, List.getElem?_cons_zero] at hb
      have := ha b hb; omega
    · have : (g ++ [Node.list as])[i]? = none := by rw [List.getElem?_eq_none]; simp; omega
      simp [heldBy, this] at hb

theorem copied_list {h g : Heap} {a : Nat} {xs : List Nat} {r : Heap × List Nat} (hl : h[a]? = some (.list xs))
    (hr : CopiedAll h xs g r) : Copied h a g (r.1 ++ [.list r.2], r.1.length) := by
  obtain ⟨e, he⟩ := hr.extends_
  have hlen : g.length ≤ r.1.length := by rw [he]; simp
  have hroot : heldBy (r.1 ++ [Node.list r.2]) r.1.length = r.2 := by simp [heldBy]
  have hold : heldBy h a = xs := by simp [heldBy, hl]
  have hcons : ∀ i p, reached (r.1 ++ [Node.list r.2]) r.1.length (i :: p) =
      match r.2[i]? with | some b => reached r.1 b p | none => none := by
    intro i p
    simp only [reached, hroot]
    cases hi : r.2[i]? with
    | none => rfl
    | some b => exact reached_extend hr.closed (hr.inside b (List.mem_of_getElem? hi)) p
  have hother : ∀ i : Nat, r.2[i]? = none ↔ xs[i]? = none := by intro i; simp [hr.length]
  refine ⟨⟨e ++ [.list r.2], by rw [← List.append_assoc, ← he]⟩, closed_snoc hr.closed hr.inside, by simp, ?_, ?_, ?_⟩
  · intro p b hp
    cases p with
    | nil => simp [reached] at hp; omega
    | cons i p =>
      rw [hcons] at hp
      split at hp
      · rename_i c hc; exact hr.fresh i c b p hc hp
      · cases hp
  · intro p
    cases p with
    | nil => simp [lookAt_nil, hl, look, hr.length]
    | cons i p =>
      rw [lookAt_cons, lookAt_cons, hroot, hold]
      cases hi : r.2[i]? with
      | none => rw [(hother i).1 hi]
      | some b =>
        cases hx : xs[i]? with
        | none => rw [(hother i).2 hx] at hi; cases hi
        | some x =>
          simp only
          rw [lookAt_extend hr.closed (hr.inside b (List.mem_of_getElem? hi))]
          exact hr.looks i b x p hi hx
  · intro p q
    have hnotroot : ∀ i p, reached (r.1 ++ [Node.list r.2]) r.1.length (i :: p) ≠ some r.1.length := by
      intro i p hh
      rw [hcons] at hh
      split at hh
      · rename_i c hc
        have := reached_lt hr.closed (hr.inside c (List.mem_of_getElem? hc)) hh
        omega
      · cases hh
    have hnb : ∀ p q, (p = [] ∨ q = []) → ThroughBox h a p q → False := by
      rintro p q hpq ⟨s, p', q', k, n, e1, e2, hb⟩
      have : s = [] := by
        rcases hpq with rfl | rfl
        · exact (List.append_eq_nil_iff.1 e1.symm).1
        · exact (List.append_eq_nil_iff.1 e2.symm).1
      subst this
      simp [lookAt_nil, hl, look] at hb
    cases p with
    | nil =>
      cases q with
      | nil => simp [SameObject, reached]
      | cons j q =>
        constructor
        · rintro ⟨b, h1, h2⟩
          simp [reached] at h1
          exact absurd (h1 ▸ h2) (hnotroot j q)
        · rintro ⟨-, h1 | h1⟩
          · cases h1
          · exact (hnb _ _ (.inl rfl) h1).elim
    | cons i p =>
      cases q with
      | nil =>
        constructor
        · rintro ⟨b, h1, h2⟩
          simp [reached] at h2
          exact absurd (h2 ▸ h1) (hnotroot i p)
        · rintro ⟨-, h1 | h1⟩
          · cases h1
          · exact (hnb _ _ (.inr rfl) h1).elim
      | cons j q =>
        by_cases hij : i = j
        · subst hij
          cases hi : r.2[i]? with
          | none =>
            simp only [SameObject, reached, hroot, hi, hold, (hother i).1 hi]
            simp
          | some b =>
            cases hx : xs[i]? with
            | none => rw [(hother i).2 hx] at hi; cases hi
            | some x =>
              have key := hr.same i b x p q hi hx
              rw [throughBox_cons hl hx]
              simp only [List.cons.injEq, true_and]
              have e1 : SameObject (r.1 ++ [Node.list r.2]) r.1.length (i :: p) (i :: q) ↔ SameObject r.1 b p q := by
                simp only [SameObject, hcons, hi]
              have e2 : SameObject h a (i :: p) (i :: q) ↔ SameObject h x p q := by
                simp only [SameObject, reached, hold, hx]
              rw [e1, e2, key]
        · constructor
          · rintro ⟨b, h1, h2⟩
            rw [hcons] at h1 h2
            split at h1
            · rename_i c hc
              split at h2
              · rename_i d hd
                exact absurd (hr.apart i j c d b p q hc hd h1 h2) hij
              · cases h2
            · cases h1
          · rintro ⟨-, h1 | ⟨s, p', q', k, n, e1, e2, hb⟩⟩
            · exact absurd (List.cons.inj h1).1 hij
            · cases s with
              | nil => simp [lookAt_nil, hl, look] at hb
              | cons m s =>
                simp only [List.cons_append, List.cons.injEq] at e1 e2
                exact absurd (e1.1.trans e2.1.symm) hij

theorem copied_atom {h g : Heap} {a n : Nat} (hg : ClosedHeap g) (hl : h[a]? = some (.atom n)) :
    Copied h a g (g ++ [.atom n], g.length) := by
  have hroot : heldBy (g ++ [Node.atom n]) g.length = [] := by simp [heldBy]
  have hold : heldBy h a = [] := by simp [heldBy, hl]
  refine ⟨⟨_, rfl⟩, ?_, by simp, ?_, ?_, ?_⟩
  · intro i b hb
    by_cases hi : i < g.length
    · rw [heldBy_append hi] at hb
      have := hg i b hb; simp; omega
    · by_cases hi' : i = g.length
      · subst hi'; rw [hroot] at hb; simp at hb
      · have : (g ++ [Node.atom n])[i]? = none := by rw [List.getElem?_eq_none]; simp; omega
        simp [heldBy, this] at hb
  · intro p b hp
    cases p with
    | nil => simp [reached] at hp; omega
    | cons i p => simp [reached, hroot] at hp
  · intro p
    cases p with
    | nil => simp [lookAt_nil, hl, look]
    | cons i p => simp [lookAt_cons, hroot, hold]
  · intro p q
    cases p with
    | nil =>
      cases q with
      | nil => simp [SameObject, reached]
      | cons j q => simp [SameObject, reached, hroot, hold]
    | cons i p => simp [SameObject, reached, hroot, hold]

theorem heldBy_shift (g h : Heap) (a : Nat) : heldBy (g ++ h.map (Node.shift g.length)) (g.length + a) = (heldBy h a).map (g.length + ·) := by
  simp only [heldBy, List.getElem?_append_right (Nat.le_add_right _ _), Nat.add_sub_cancel_left, List.getElem?_map]
  cases h[a]? with
  | none => rfl
  | some n => cases n <;> rfl

theorem reached_shift (g h : Heap) (a : Nat) (p : List Nat) :
    reached (g ++ h.map (Node.shift g.length)) (g.length + a) p = (reached h a p).map (g.length + ·) := by
  induction p generalizing a with
  | nil => rfl
  | cons i p ih =>
    simp only [reached, heldBy_shift, List.getElem?_map]
    cases (heldBy h a)[i]? with
    | none => rfl
    | some b => exact ih b

theorem copied_boxed {h g : Heap} {a k : Nat} {xs : List Nat} (hg : ClosedHeap g) (hh : ClosedHeap h) (hl : h[a]? = some (.boxed k xs)) :
    Copied h a g (g ++ h.map (Node.shift g.length), g.length + a) := by
  have ha : a < h.length := by
    rcases Nat.lt_or_ge a h.length with h1 | h1
    · exact h1
    · rw [List.getElem?_eq_none h1] at hl; cases hl
  refine ⟨⟨_, rfl⟩, ?_, by simp; exact ha, ?_, ?_, ?_⟩
  · intro i b hb
    by_cases hi : i < g.length
    · rw [heldBy_append hi] at hb
      have := hg i b hb; simp; omega
    · obtain ⟨j, rfl⟩ : ∃ j, i = g.length + j := ⟨i - g.length, by omega⟩
      rw [heldBy_shift] at hb
      obtain ⟨c, hc, rfl⟩ := List.mem_map.1 hb
      have := hh j c hc; simp; exact this
  · intro p b hp
    simp only [reached_shift, Option.map_eq_some_iff] at hp
    obtain ⟨c, -, rfl⟩ := hp; omega
  · intro p
    simp only [lookAt, reached_shift]
    cases reached h a p with
    | none => rfl
    | some b =>
      simp only [Option.map_some, List.getElem?_append_right (Nat.le_add_right _ _), Nat.add_sub_cancel_left, List.getElem?_map]
      cases h[b]? with
      | none => rfl
      | some n => cases n <;> simp [look, Node.shift]
  · intro p q
    have e1 : SameObject (g ++ h.map (Node.shift g.length)) (g.length + a) p q ↔ SameObject h a p q := by
      simp only [SameObject, reached_shift, Option.map_eq_some_iff]
      constructor
      · rintro ⟨b, ⟨c, h1, e1⟩, d, h2, e2⟩
        have : c = d := by omega
        subst this
        exact ⟨c, h1, h2⟩
      · rintro ⟨c, h1, h2⟩
        exact ⟨g.length + c, ⟨c, h1, rfl⟩, c, h2, rfl⟩
    rw [e1]
    exact ⟨fun h' => ⟨h', .inr ⟨[], p, q, k, xs.length, rfl, rfl, by simp [lookAt_nil, hl, look]⟩⟩, fun h' => h'.1⟩

theorem copied {h : Heap} (hh : ClosedHeap h) : ∀ (d a : Nat) (w : Sharing.Wire), encode h d a = some w → ∀ g, ClosedHeap g → Copied h a g (decode w g) := by
  intro d
  induction d with
  | zero => intro a w hw; cases hw
  | succ d ih =>
    intro a w hw g hg
    simp only [encode] at hw
    split at hw
    · cases hw
    · rename_i n hn; cases hw; exact copied_atom hg hn
    · rename_i xs hx
      rw [Option.map_eq_some_iff] at hw
      obtain ⟨ws, hws, rfl⟩ := hw
      refine copied_list hx ?_
      clear hx
      induction xs generalizing ws g with
      | nil =>
        simp at hws; subst hws
        refine ⟨⟨[], by simp [decodeAll]⟩, hg, rfl, ?_, ?_, ?_, ?_, ?_⟩ <;> simp [decodeAll]
      | cons x xs ihx =>
        simp only [List.mapM_cons, Option.bind_eq_bind, Option.bind_eq_some_iff, Option.pure_def, Option.some.injEq] at hws
        obtain ⟨w1, h1, ws', h2, rfl⟩ := hws
        have c1 := ih x w1 h1 g hg
        exact copiedAll_cons c1 (ihx _ c1.closed ws' h2)
    · rename_i k xs hx
      split at hw
      · cases hw
      · cases hw; exact copied_boxed hg hh hx

/-! ### C123 -/

/-- Numbers, texts and the like, of which it does not matter whether they are the same object. -/
def IsAtom (h : Heap) (a : Nat) (p : List Nat) : Prop := ∃ n, lookAt h a p = some (.atom n)

/-- **C123**, full claim: every object can be serialized; what comes back looks the same along every path, and two paths lead to the same object exactly
if they did before. -/
def C123_full : Prop := ∀ (h : Heap) (a : Nat), ClosedHeap h → a < h.length → ∃ w, encode h levels a = some w ∧
  (∀ p, lookAt (decode w []).1 (decode w []).2 p = lookAt h a p) ∧
  ∀ p q, ¬ IsAtom h a p → (SameObject (decode w []).1 (decode w []).2 p q ↔ SameObject h a p q)

/-- Whatever can be serialized looks the same afterwards, along every path (in a process with any other objects). Missing: what cannot be serialized. -/
theorem C123_looks_partial (h g : Heap) (a d : Nat) (w : Sharing.Wire) (hh : ClosedHeap h) (hg : ClosedHeap g) (hw : encode h d a = some w) (p : List Nat) :
    lookAt (decode w g).1 (decode w g).2 p = lookAt h a p := (copied hh d a w hw g hg).looks p

/-- After serialization two paths lead to the same object exactly if they did before and they are the same path, or both go through one object that is
neither a list nor a dictionary (which is pickled as a whole), reached in the same way. Missing: what is the same along other paths. -/
theorem C123_same_exactly_partial (h g : Heap) (a d : Nat) (w : Sharing.Wire) (hh : ClosedHeap h) (hg : ClosedHeap g) (hw : encode h d a = some w)
    (p q : List Nat) (hp : ¬ IsAtom h a p) :
    SameObject (decode w g).1 (decode w g).2 p q ↔ SameObject h a p q ∧ (p = q ∨ ThroughBox h a p q) := by
  have _ := hp
  exact (copied hh d a w hw g hg).same p q

/-- What comes back is new: nothing of it is an object the process had before. -/
theorem C123_new (h g : Heap) (a d : Nat) (w : Sharing.Wire) (hh : ClosedHeap h) (hg : ClosedHeap g) (hw : encode h d a = some w) (p : List Nat) (b : Nat)
    (hb : reached (decode w g).1 (decode w g).2 p = some b) : g.length ≤ b ∧ ∀ c, c < g.length → (decode w g).1[c]? = g[c]? := by
  have hc := copied hh d a w hw g hg
  obtain ⟨e, he⟩ := hc.extends_
  exact ⟨hc.fresh p b hb, fun c hlt => by rw [he, List.getElem?_append_left hlt]⟩

theorem mapM_none {α β : Type} (f : α → Option β) (xs : List α) : xs.mapM f = none ↔ ∃ x ∈ xs, f x = none := by
  induction xs with
  | nil => simp
  | cons x xs ih =>
    simp only [List.mapM_cons, Option.bind_eq_bind, List.mem_cons, exists_eq_or_imp, ← ih]
    cases f x with
    | none => simp
    | some y => cases xs.mapM f <;> simp

/-- An object is refused exactly if some path through lists and dictionaries is as long as the limit, or one shorter and ends at an object that is
pickled. Missing: these objects. -/
theorem C123_refused_exactly_partial (h : Heap) (hh : ClosedHeap h) (d a : Nat) (ha : a < h.length) :
    encode h d a = none ↔ ∃ p, OpenPath h a p ∧ (d ≤ p.length ∨ (d = p.length + 1 ∧ ∃ k n, lookAt h a p = some (.boxed k n))) := by
  induction d generalizing a with
  | zero => exact ⟨fun _ => ⟨[], trivial, .inl (Nat.le_refl _)⟩, fun _ => rfl⟩
  | succ d ih =>
    have hnil : ∀ n, h[a]? = some n → (∀ xs, n ≠ .list xs) → ∀ p, OpenPath h a p → p = [] := by
      intro n hn hl p hp
      cases p with
      | nil => rfl
      | cons i p => obtain ⟨⟨xs, hx⟩, -⟩ := hp; rw [hn] at hx; cases hx; exact absurd rfl (hl xs)
    simp only [encode]
    cases hn : h[a]? with
    | none => rw [List.getElem?_eq_none_iff] at hn; omega
    | some n =>
      cases n with
      | atom n =>
        simp only [reduceCtorEq, false_iff]
        rintro ⟨p, hp, h1⟩
        have := hnil _ hn (by simp) p hp
        subst this
        rcases h1 with h1 | ⟨-, k, n, h1⟩
        · simp at h1
        · simp [lookAt_nil, hn, look] at h1
      | boxed k xs =>
        simp only [ite_eq_left_iff, reduceCtorEq, imp_false, Classical.not_not]
        constructor
        · rintro rfl; exact ⟨[], trivial, .inr ⟨rfl, k, xs.length, by simp [lookAt_nil, hn, look]⟩⟩
        · rintro ⟨p, hp, h1⟩
          have := hnil _ hn (by simp) p hp
          subst this
          rcases h1 with h1 | ⟨h1, -⟩
          · simp at h1
          · simpa using h1
      | list xs =>
        have hx : heldBy h a = xs := by simp [heldBy, hn]
        simp only [Option.map_eq_none_iff, mapM_none]
        constructor
        · rintro ⟨b, hb, he⟩
          obtain ⟨p, hp, h1⟩ := (ih b (hh a b (by rw [hx]; exact hb))).1 he
          obtain ⟨i, hi⟩ := List.mem_iff_getElem?.1 hb
          refine ⟨i :: p, ⟨⟨xs, hn⟩, b, by rw [hx]; exact hi, hp⟩, ?_⟩
          rcases h1 with h1 | ⟨h1, k, n, h2⟩
          · exact .inl (by simp; omega)
          · exact .inr ⟨by simp; omega, k, n, by rw [lookAt_cons, hx, hi]; exact h2⟩
        · rintro ⟨p, hp, h1⟩
          cases p with
          | nil =>
            rcases h1 with h1 | ⟨-, k, n, h1⟩
            · simp at h1
            · simp [lookAt_nil, hn, look] at h1
          | cons i p =>
            obtain ⟨-, b, hb, hp⟩ := hp
            rw [hx] at hb
            refine ⟨b, List.mem_of_getElem? hb, (ih b (hh a b (by rw [hx]; exact List.mem_of_getElem? hb))).2 ⟨p, hp, ?_⟩⟩
            rcases h1 with h1 | ⟨h1, k, n, h2⟩
            · exact .inl (by simp at h1; omega)
            · exact .inr ⟨by simp at h1; omega, k, n, by rw [lookAt_cons, hx, hb] at h2; exact h2⟩

theorem openPath_append {h : Heap} {a b : Nat} {p q : List Nat} (hp : OpenPath h a p) (hr : reached h a p = some b) (hq : OpenPath h b q) :
    OpenPath h a (p ++ q) := by
  induction p generalizing a with
  | nil => simp [reached] at hr; subst hr; exact hq
  | cons i p ih =>
    obtain ⟨h1, c, hc, hp⟩ := hp
    simp only [reached, hc] at hr
    exact ⟨h1, c, hc, ih hp hr⟩

/-- A list or dictionary that contains itself, with nothing but lists and dictionaries in between, is refused whatever the limit. -/
theorem C123_cycle_violated (h : Heap) (hh : ClosedHeap h) (a : Nat) (ha : a < h.length) (p : List Nat) (hne : p ≠ []) (hp : OpenPath h a p)
    (hr : reached h a p = some a) (d : Nat) : encode h d a = none := by
  have key : ∀ n, ∃ q, OpenPath h a q ∧ reached h a q = some a ∧ n ≤ q.length := by
    intro n
    induction n with
    | zero => exact ⟨[], trivial, rfl, Nat.le_refl _⟩
    | succ n ih =>
      obtain ⟨q, h1, h2, h3⟩ := ih
      refine ⟨p ++ q, openPath_append hp hr h1, by rw [reached_append, hr]; exact h2, ?_⟩
      have := List.length_pos_iff.2 hne
      simp; omega
  obtain ⟨q, h1, -, h3⟩ := key d
  exact (C123_refused_exactly_partial h hh d a ha).2 ⟨q, h1, .inl h3⟩

/-- A list that contains another list twice contains two different lists afterwards: a change of one is not seen in the other. -/
theorem C123_shared_violated : ¬ C123_full := by
  intro h
  have hc : ClosedHeap [.list [1, 1], .list []] := by
    intro a b hb
    match a with
    | 0 => simp [heldBy] at hb; subst hb; decide
    | 1 => simp [heldBy] at hb
    | n + 2 => simp [heldBy] at hb
  obtain ⟨w, hw, -, hs⟩ := h [.list [1, 1], .list []] 0 hc (by decide)
  have hna : ¬ IsAtom [.list [1, 1], .list []] 0 [0] := by
    rintro ⟨n, hn⟩
    simp [lookAt, reached, heldBy, look] at hn
  have h1 := (hs [0] [1] hna).2 ⟨1, rfl, rfl⟩
  have hg : ClosedHeap [] := by intro a b hb; simp [heldBy] at hb
  obtain ⟨-, h2 | ⟨r, p', q', k, n, e1, e2, hl⟩⟩ := (C123_same_exactly_partial _ [] 0 levels w hc hg hw [0] [1] hna).1 h1
  · cases h2
  · cases r with
    | nil => simp [lookAt, reached, look] at hl
    | cons i r =>
      simp only [List.cons_append, List.cons.injEq] at e1 e2
      omega

/-- Lists nested as deep as the limit are refused, although nothing is contained twice. -/
theorem C123_depth_violated (d : Nat) : ∃ (h : Heap) (a : Nat), ClosedHeap h ∧ a < h.length ∧ encode h d a = none ∧
    ∀ p q, SameObject h a p q → p = q := by
  -- the object at `a` is an empty list or a list of the object before it
  let h : Heap := .list [] :: (List.range d).map fun i => .list [i]
  have hz : heldBy h 0 = [] := by simp [heldBy, h]
  have hs : ∀ i, i < d → h[i + 1]? = some (.list [i]) := by
    intro i hi; simp [h, hi]
  have hheld : ∀ i, i < d → heldBy h (i + 1) = [i] := fun i hi => by simp [heldBy, hs i hi]
  have hlen : h.length = d + 1 := by simp [h]
  have hc : ClosedHeap h := by
    intro a b hb
    cases a with
    | zero => rw [hz] at hb; simp at hb
    | succ i =>
      by_cases hi : i < d
      · rw [hheld i hi] at hb; simp at hb; omega
      · have : h[i + 1]? = none := by rw [List.getElem?_eq_none]; omega
        simp [heldBy, this] at hb
  have hopen : ∀ i, i ≤ d → OpenPath h i (List.replicate i 0) := by
    intro i
    induction i with
    | zero => intro _; trivial
    | succ i ih => intro hi; exact ⟨⟨_, hs i hi⟩, i, by rw [hheld i hi]; rfl, ih (by omega)⟩
  have hdown : ∀ p i b, i ≤ d → reached h i p = some b → p = List.replicate p.length 0 ∧ b + p.length = i := by
    intro p
    induction p with
    | nil => intro i b hi hr; simp [reached] at hr; exact ⟨rfl, by simp [hr]⟩
    | cons j p ih =>
      intro i b hi hr
      cases i with
      | zero => simp [reached, hz] at hr
      | succ i =>
        simp only [reached, hheld i hi] at hr
        cases j with
        | zero =>
          simp at hr
          obtain ⟨h1, h2⟩ := ih i b (by omega) hr
          exact ⟨by rw [List.length_cons, List.replicate_succ, ← h1], by simp; omega⟩
        | succ j => simp at hr
  refine ⟨h, d, hc, by omega, (C123_refused_exactly_partial h hc d d (by omega)).2 ⟨_, hopen d (Nat.le_refl _), .inl (by simp)⟩, ?_⟩
  rintro p q ⟨b, hp, hq⟩
  obtain ⟨h1, h2⟩ := hdown p d b (Nat.le_refl _) hp
  obtain ⟨h3, h4⟩ := hdown q d b (Nat.le_refl _) hq
  rw [h1, h3]
  congr 1
  omega

/-- Everything is kept of a tuple, set or other object that is pickled, also what contains itself. -/
theorem C123_pickled_partial (h g : Heap) (a d k : Nat) (xs : List Nat) (hh : ClosedHeap h) (hg : ClosedHeap g) (hd : 2 ≤ d) (hb : h[a]? = some (.boxed k xs)) :
    ∃ w, encode h d a = some w ∧ (∀ p, lookAt (decode w g).1 (decode w g).2 p = lookAt h a p) ∧
      ∀ p q, SameObject (decode w g).1 (decode w g).2 p q ↔ SameObject h a p q := by
  obtain ⟨d, rfl⟩ : ∃ n, d = n + 2 := ⟨d - 2, by omega⟩
  have hw : encode h (d + 2) a = some (.pickled h a) := by simp [encode, hb]
  have hc := copied hh _ a _ hw g hg
  refine ⟨_, hw, hc.looks, fun p q => (hc.same p q).trans ⟨fun h => h.1, fun h => ⟨h, .inr ?_⟩⟩⟩
  exact ⟨[], p, q, k, xs.length, rfl, rfl, by simp [lookAt_nil, hb, look]⟩

/-- Lists in lists, the innermost one empty. -/
def exNest (n : Nat) : Heap := .list [] :: (List.range n).map fun i => .list [i]

theorem encode_nest (n : Nat) : ∀ d a, a ≤ n → ((encode (exNest n) d a).isSome = true ↔ a < d)
  | 0, a, _ => by simp [encode]
  | d + 1, 0, _ => by simp [encode, exNest]
  | d + 1, a + 1, h => by
    have hg : (exNest n)[a + 1]? = some (.list [a]) := by simp [exNest, List.getElem?_range (show a < n by omega)]
    have ih := encode_nest n d a (by omega)
    rw [encode, hg]
    cases he : encode (exNest n) d a with
    | none => rw [he] at ih; simp at ih; simp [he]; omega
    | some w => rw [he] at ih; simp at ih; simp [he]; omega

/-- **C123**: lists inside each other can be sent exactly if there are at most 512 of them. -/
theorem C123_levels_partial (n : Nat) : (∃ w, encode (exNest n) levels n = some w) ↔ n + 1 ≤ 512 := by
  rw [← Option.isSome_iff_exists, encode_nest n levels n (Nat.le_refl _), levels]
  omega

example : encode (exNest 600) levels 600 = none := by
  cases h : encode (exNest 600) levels 600 with
  | none => rfl
  | some w => exact absurd ((C123_levels_partial 600).1 ⟨w, h⟩) (by decide)

/-- `[x, (x, y, y)]` where `y` is the tuple itself put in a list: the tuple keeps its two lists the same, the first `x` is another one. -/
example : (encode [.list [1, 2], .list [], .boxed 0 [1, 3, 3], .list [2]] levels 0).map (fun w => decode w [.atom 9]) =
    some ([.atom 9, .list [], .list [3, 4], .list [], .boxed 0 [3, 5, 5], .list [4], .list [1, 4]], 6) := by decide

/-- A list that contains itself is refused; in a tuple it is not. -/
example : encode [.list [0]] levels 0 = none ∧ (encode [.list [0], .boxed 0 [0]] levels 1).isSome = true :=
  ⟨C123_cycle_violated _ (by intro a b hb; match a with | 0 => simp [heldBy] at hb; subst hb; decide | n + 1 => simp [heldBy] at hb) 0 (by decide) [0]
    (by simp) ⟨⟨_, rfl⟩, 0, rfl, trivial⟩ rfl _, by decide⟩

end Verif.Props
