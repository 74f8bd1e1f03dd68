import Verif.Model.DataIds

/-! Helper lemmas for references. -/
namespace Verif.Ids

/-! ### Text -/

theorem digit_toNat {d : Nat} (h : d < 10) : (digitChar d).toNat = 48 + d := by
  have : d = 0 ∨ d = 1 ∨ d = 2 ∨ d = 3 ∨ d = 4 ∨ d = 5 ∨ d = 6 ∨ d = 7 ∨ d = 8 ∨ d = 9 := by omega
  rcases this with rfl | rfl | rfl | rfl | rfl | rfl | rfl | rfl | rfl | rfl <;> decide

theorem parseFrom_append (a b : Str) (acc : Nat) :
    parseFrom acc (a ++ b) = (parseFrom acc a).bind fun x => parseFrom x b := by
  induction a generalizing acc with
  | nil => simp [parseFrom]
  | cons c t ih =>
    simp only [List.cons_append, parseFrom]
    split
    · exact ih _
    · rfl

theorem decimal_ne_nil (n : Nat) : decimal n ≠ [] := by
  unfold decimal
  split <;> simp

theorem parseFrom_decimal (n : Nat) : parseFrom 0 (decimal n) = some n := by
  induction n using Nat.strongRecOn with
  | ind n ih =>
    unfold decimal
    split
    · rename_i h
      simp only [parseFrom, digit_toNat h]
      simp
      omega
    · rename_i h
      rw [parseFrom_append, ih (n / 10) (by omega)]
      have hd : n % 10 < 10 := by omega
      simp only [Option.bind_some, parseFrom, digit_toNat hd]
      have : 48 ≤ 48 + n % 10 ∧ 48 + n % 10 ≤ 57 := by omega
      simp only [this, and_self, if_true]
      congr 1
      omega

theorem parseInt_decimal (n : Nat) : parseInt (decimal n) = some n := by
  have h := decimal_ne_nil n
  have h2 := parseFrom_decimal n
  cases hh : decimal n with
  | nil => exact absurd hh h
  | cons c t => rw [hh] at h2; simpa [parseInt] using h2

theorem decimal_digits (n : Nat) : ∀ c ∈ decimal n, 48 ≤ c.toNat ∧ c.toNat ≤ 57 := by
  induction n using Nat.strongRecOn with
  | ind n ih =>
    unfold decimal
    split
    · rename_i h
      intro c hc
      simp only [List.mem_singleton] at hc
      rw [hc, digit_toNat h]; omega
    · intro c hc
      rw [List.mem_append] at hc
      rcases hc with hc | hc
      · exact ih (n / 10) (by omega) c hc
      · simp only [List.mem_singleton] at hc
        rw [hc, digit_toNat (by omega)]; omega

theorem split_noSep (a : Str) (h : ∀ c ∈ a, c ≠ '_') : split a = [a] := by
  induction a with
  | nil => rfl
  | cons c t ih =>
    have hc := h c (by simp)
    simp [split, hc, ih (fun x hx => h x (by simp [hx]))]

theorem split_append (a b : Str) (h : ∀ c ∈ a, c ≠ '_') : split (a ++ '_' :: b) = a :: split b := by
  induction a with
  | nil => simp [split]
  | cons c t ih =>
    have hc := h c (by simp)
    simp [split, hc, ih (fun x hx => h x (by simp [hx]))]

theorem decimal_noSep (n : Nat) : ∀ c ∈ decimal n, c ≠ '_' := by
  intro c hc h
  have := decimal_digits n c hc
  subst h
  revert this; decide

theorem decimal_filter (n : Nat) : (decimal n).filter (· != ')') = decimal n := by
  rw [List.filter_eq_self]
  intro c hc
  have := decimal_digits n c hc
  simp only [bne_iff_ne, ne_eq]
  rintro rfl
  revert this; decide

theorem split_idText (pre : Str) (d : DataId) (h : ∀ c ∈ pre, c ≠ '_') :
    split (pre ++ ('_' :: (decimal d.rank ++ '_' :: (['i', 'd'] ++ '_' :: decimal d.num)))) =
      [pre, decimal d.rank, ['i', 'd'], decimal d.num] := by
  rw [split_append _ _ h, split_append _ _ (decimal_noSep _), split_append _ _ (by decide),
    split_noSep _ (decimal_noSep _)]

theorem idText_eq (d : DataId) :
    idText d = ['r', 'a', 'n', 'k'] ++ ('_' :: (decimal d.rank ++ '_' :: (['i', 'd'] ++ '_' :: decimal d.num))) := by
  simp [idText]

theorem parseId_idText (d : DataId) : parseId (idText d) = some (d.rank, d.num) := by
  have hf : (idText d).filter (· != ')') = idText d := by
    simp [idText, List.filter_append, decimal_filter]
  unfold parseId
  rw [hf, idText_eq, split_idText _ _ (by decide)]
  simp [parseInt_decimal]

theorem parseId_reprText (d : DataId) : parseId (reprText d) = some (d.rank, d.num) := by
  have hf : (reprText d).filter (· != ')') = ['D', 'a', 't', 'a', 'I', 'D', '(', 'r', 'a', 'n', 'k'] ++
      ('_' :: (decimal d.rank ++ '_' :: (['i', 'd'] ++ '_' :: decimal d.num))) := by
    simp [reprText, idText, List.filter_append, decimal_filter]
  unfold parseId
  rw [hf, split_idText _ _ (by decide)]
  simp [parseInt_decimal]

theorem idText_injective {a b : DataId} (h : idText a = idText b) : a = b := by
  have h1 := parseId_idText a
  rw [h, parseId_idText b] at h1
  cases a; cases b
  simp_all

/-! ### Generation -/

theorem generate_spec (r k : Nat) (cs : Counters) :
    (∀ id ∈ (generate r k cs).1, id.rank = r ∧ cs r ≤ id.num ∧ id.num < cs r + k) ∧ (generate r k cs).1.Nodup ∧
    (generate r k cs).1.length = k ∧ ∀ x, (generate r k cs).2 x = if x = r then cs r + k else cs x := by
  induction k generalizing cs with
  | zero => simp [generate]
  | succ k ih =>
    obtain ⟨h1, h2, h3, h4⟩ := ih (fun x => if x = r then cs r + 1 else cs x)
    simp only [if_true] at h1 h4
    refine ⟨?_, ?_, ?_, ?_⟩
    · intro id hid
      simp only [generate, List.mem_cons] at hid
      rcases hid with rfl | hid
      · simp
      · have := h1 id hid; omega
    · simp only [generate, List.nodup_cons]
      refine ⟨fun hm => ?_, h2⟩
      have := h1 _ hm
      simp at this
      omega
    · simp [generate, h3]
    · intro x
      simp only [generate, h4]
      split <;> omega

theorem generateAll_spec (gs : List Gen) (cs : Counters) :
    (∀ id ∈ (generateAll gs cs).1, cs id.rank ≤ id.num) ∧ (generateAll gs cs).1.Nodup := by
  induction gs generalizing cs with
  | nil => simp [generateAll]
  | cons g gs ih =>
    obtain ⟨a1, a2, -, a4⟩ := generate_spec g.rank g.count cs
    obtain ⟨b1, b2⟩ := ih (generate g.rank g.count cs).2
    refine ⟨?_, ?_⟩
    · intro id hid
      simp only [generateAll, List.mem_append] at hid
      rcases hid with hid | hid
      · have := a1 id hid; rw [this.1]; exact this.2.1
      · have := b1 id hid
        rw [a4] at this
        split at this
        · rename_i h; rw [h]; omega
        · exact this
    · simp only [generateAll]
      rw [List.nodup_append]
      refine ⟨a2, b2, ?_⟩
      intro x hx y hy hxy
      subst hxy
      have h1 := a1 x hx
      have h2 := b1 x hy
      rw [a4, if_pos h1.1] at h2
      omega

/-! ### Life cycle -/

/-- The invariant of a process. -/
structure Good (p : Proc) : Prop where
  mem_alive : ∀ (id : DataId) (a : Nat), (id, a) ∈ p.instances → ∃ o : IdObj, p.heap[a]? = some o ∧ o.id = id ∧ 0 < o.refs
  alive_find : ∀ (a : Nat) (o : IdObj), p.heap[a]? = some o → 0 < o.refs → find o.id p.instances = some a
  known : ∀ (a : Nat) (o : IdObj), p.heap[a]? = some o → o.id.rank = p.rank → o.id.num < p.counter
  gc_own : ∀ (a : Nat) (o : IdObj), p.heap[a]? = some o → o.gc = true → o.id.rank = p.rank
  gc_unique : ∀ (a : Nat) (o : IdObj) (a' : Nat) (o' : IdObj), p.heap[a]? = some o → p.heap[a']? = some o' → o.gc = true → o'.gc = true → o.id = o'.id → a = a'
  owned : ∀ n, n < p.counter → ∃ (a : Nat) (o : IdObj), p.heap[a]? = some o ∧ o.id = ⟨p.rank, n⟩ ∧ o.gc = true
  count_gc : ∀ (a : Nat) (o : IdObj), p.heap[a]? = some o → o.gc = true → p.reported.count o.id = if o.refs = 0 then 1 else 0
  count_other : ∀ id : DataId, (id.rank ≠ p.rank ∨ p.counter ≤ id.num) → p.reported.count id = 0

theorem good_init (r : Nat) : Good (Proc.init r) := by
  constructor <;> simp [Proc.init, find]

theorem find_filter_ne {inst : List (DataId × Nat)} {id : DataId} {a b : Nat} (h : find id inst = some b) (hb : b ≠ a) :
    find id (inst.filter fun e => e.2 ≠ a) = some b := by
  induction inst with
  | nil => simp [find] at h
  | cons e t ih =>
    obtain ⟨k, x⟩ := e
    simp only [find] at h
    by_cases hk : k = id
    · rw [if_pos hk] at h
      simp only [Option.some.injEq] at h
      subst h
      simp [hb, find, hk]
    · rw [if_neg hk] at h
      by_cases hx : x = a
      · simp only [List.filter_cons, hx]; simpa using ih h
      · simp [hx, find, hk]; simpa using ih h

theorem find_mem {inst : List (DataId × Nat)} {id : DataId} {a : Nat} (h : find id inst = some a) : (id, a) ∈ inst := by
  induction inst with
  | nil => simp [find] at h
  | cons e t ih =>
    obtain ⟨k, x⟩ := e
    simp only [find] at h
    split at h
    · simp_all
    · simp [ih h]

theorem getElem?_modify_cases {α : Type} {l : List α} {f : α → α} {a b : Nat} {o : α} (h : (l.modify a f)[b]? = some o) :
    (b ≠ a ∧ l[b]? = some o) ∨ (b = a ∧ ∃ o₀, l[a]? = some o₀ ∧ o = f o₀) := by
  rw [List.getElem?_modify] at h
  by_cases hb : a = b
  · subst hb
    right
    simp only [if_true] at h
    cases hh : l[a]? with
    | none => rw [hh] at h; simp at h
    | some o₀ => rw [hh] at h; simp at h; exact ⟨rfl, o₀, rfl, h.symm⟩
  · left
    simp only [hb, if_false] at h
    refine ⟨fun hc => hb hc.symm, ?_⟩
    simpa using h

theorem modify_some {α : Type} {l : List α} {f : α → α} {a b : Nat} {o : α} (h : l[b]? = some o) :
    (l.modify a f)[b]? = some (if b = a then f o else o) := by
  rw [List.getElem?_modify, h]
  by_cases hb : a = b
  · simp [hb]
  · have : ¬ b = a := fun h => hb h.symm
    simp [hb, this]

/-- A change of one object that keeps identity, handle and liveness keeps the invariant. -/
theorem good_modify {p : Proc} (h : Good p) (a : Nat) (f : IdObj → IdObj)
    (hf : ∀ o, p.heap[a]? = some o → (f o).id = o.id ∧ (f o).gc = o.gc ∧ (0 < (f o).refs ↔ 0 < o.refs)) :
    Good { p with heap := p.heap.modify a f } := by
  have key : ∀ (b : Nat) (o : IdObj), (p.heap.modify a f)[b]? = some o →
      ∃ o₀ : IdObj, p.heap[b]? = some o₀ ∧ o.id = o₀.id ∧ o.gc = o₀.gc ∧ (0 < o.refs ↔ 0 < o₀.refs) := by
    intro b o hb
    rcases getElem?_modify_cases hb with ⟨-, h1⟩ | ⟨rfl, o₀, h1, rfl⟩
    · exact ⟨o, h1, rfl, rfl, Iff.rfl⟩
    · exact ⟨o₀, h1, hf o₀ h1⟩
  have key2 : ∀ (b : Nat) (o : IdObj), p.heap[b]? = some o →
      ∃ o₁ : IdObj, (p.heap.modify a f)[b]? = some o₁ ∧ o₁.id = o.id ∧ o₁.gc = o.gc ∧ (0 < o₁.refs ↔ 0 < o.refs) := by
    intro b o hb
    refine ⟨_, modify_some hb, ?_⟩
    by_cases hba : b = a
    · subst hba; simpa using hf o hb
    · simp [hba]
  constructor
  · intro id b hb
    obtain ⟨o, h1, h2, h3⟩ := h.mem_alive id b hb
    obtain ⟨o₁, g1, g2, g3, g4⟩ := key2 b o h1
    exact ⟨o₁, g1, g2.trans h2, g4.2 h3⟩
  · intro b o hb hr
    obtain ⟨o₀, g1, g2, g3, g4⟩ := key b o hb
    rw [g2]; exact h.alive_find b o₀ g1 (g4.1 hr)
  · intro b o hb hr
    obtain ⟨o₀, g1, g2, g3, g4⟩ := key b o hb
    rw [g2] at hr ⊢; exact h.known b o₀ g1 hr
  · intro b o hb hg
    obtain ⟨o₀, g1, g2, g3, g4⟩ := key b o hb
    rw [g2]; exact h.gc_own b o₀ g1 (g3 ▸ hg)
  · intro b o b' o' hb hb' hg hg' he
    obtain ⟨o₀, g1, g2, g3, g4⟩ := key b o hb
    obtain ⟨o₀', g1', g2', g3', g4'⟩ := key b' o' hb'
    exact h.gc_unique b o₀ b' o₀' g1 g1' (g3 ▸ hg) (g3' ▸ hg') (by rw [← g2, ← g2', he])
  · intro n hn
    obtain ⟨b, o, h1, h2, h3⟩ := h.owned n hn
    obtain ⟨o₁, g1, g2, g3, g4⟩ := key2 b o h1
    exact ⟨b, o₁, g1, g2.trans h2, g3.trans h3⟩
  · intro b o hb hg
    obtain ⟨o₀, g1, g2, g3, g4⟩ := key b o hb
    have := h.count_gc b o₀ g1 (g3 ▸ hg)
    rw [g2]
    simp only
    rw [this]
    have e : o.refs = 0 ↔ o₀.refs = 0 := by omega
    simp [e]
  · exact h.count_other

theorem getElem?_snoc {α : Type} {l : List α} {x o : α} {b : Nat} (h : (l ++ [x])[b]? = some o) :
    l[b]? = some o ∨ (b = l.length ∧ o = x) := by
  rcases Nat.lt_trichotomy b l.length with hb | hb | hb
  · left; rwa [List.getElem?_append_left hb] at h
  · subst hb; simp at h; exact Or.inr ⟨rfl, h.symm⟩
  · rw [List.getElem?_eq_none (by simp; omega)] at h; cases h

theorem snoc_old {α : Type} {l : List α} {x o : α} {b : Nat} (h : l[b]? = some o) : (l ++ [x])[b]? = some o := by
  have hb : b < l.length := by
    rw [List.getElem?_eq_some_iff] at h
    exact h.1
  rw [List.getElem?_append_left hb, h]

theorem lt_of_some {α : Type} {l : List α} {o : α} {b : Nat} (h : l[b]? = some o) : b < l.length := by
  rw [List.getElem?_eq_some_iff] at h
  exact h.1

/-- A new object without handle. -/
theorem good_append {p : Proc} (h : Good p) (id : DataId) (hn : find id p.instances = none)
    (hid : id.rank = p.rank → id.num < p.counter) :
    Good { p with heap := p.heap ++ [⟨id, false, 1⟩], instances := (id, p.heap.length) :: p.instances } := by
  constructor
  · intro i b hb
    rcases List.mem_cons.1 hb with hb | hb
    · injection hb with he hb
      subst hb
      exact ⟨⟨id, false, 1⟩, by simp, he.symm, by simp⟩
    · obtain ⟨o, h1, h2, h3⟩ := h.mem_alive i b hb
      exact ⟨o, snoc_old h1, h2, h3⟩
  · intro b o hb hr
    simp only [find]
    rcases getElem?_snoc hb with hb | ⟨rfl, rfl⟩
    · have := h.alive_find b o hb hr
      split
      · rename_i he; rw [← he, hn] at this; cases this
      · exact this
    · simp
  · intro b o hb hr
    rcases getElem?_snoc hb with hb | ⟨rfl, rfl⟩
    · exact h.known b o hb hr
    · exact hid hr
  · intro b o hb hg
    rcases getElem?_snoc hb with hb | ⟨rfl, rfl⟩
    · exact h.gc_own b o hb hg
    · simp at hg
  · intro b o b' o' hb hb' hg hg' he
    rcases getElem?_snoc hb with hb | ⟨rfl, rfl⟩
    · rcases getElem?_snoc hb' with hb' | ⟨rfl, rfl⟩
      · exact h.gc_unique b o b' o' hb hb' hg hg' he
      · simp at hg'
    · simp at hg
  · intro n hn'
    obtain ⟨b, o, h1, h2, h3⟩ := h.owned n hn'
    exact ⟨b, o, snoc_old h1, h2, h3⟩
  · intro b o hb hg
    rcases getElem?_snoc hb with hb | ⟨rfl, rfl⟩
    · exact h.count_gc b o hb hg
    · simp at hg
  · exact h.count_other

/-- A new own object. -/
theorem good_create {p : Proc} (h : Good p) (hn : find ⟨p.rank, p.counter⟩ p.instances = none) :
    Good { p with heap := p.heap ++ [⟨⟨p.rank, p.counter⟩, true, 1⟩],
                  instances := (⟨p.rank, p.counter⟩, p.heap.length) :: p.instances, counter := p.counter + 1 } := by
  constructor
  · intro i b hb
    rcases List.mem_cons.1 hb with hb | hb
    · injection hb with he hb
      subst hb
      exact ⟨⟨⟨p.rank, p.counter⟩, true, 1⟩, by simp, he.symm, by simp⟩
    · obtain ⟨o, h1, h2, h3⟩ := h.mem_alive i b hb
      exact ⟨o, snoc_old h1, h2, h3⟩
  · intro b o hb hr
    simp only [find]
    rcases getElem?_snoc hb with hb | ⟨rfl, rfl⟩
    · have := h.alive_find b o hb hr
      split
      · rename_i he; rw [← he, hn] at this; cases this
      · exact this
    · simp
  · intro b o hb hr
    rcases getElem?_snoc hb with hb | ⟨rfl, rfl⟩
    · have := h.known b o hb hr; simp only; omega
    · simp
  · intro b o hb hg
    rcases getElem?_snoc hb with hb | ⟨rfl, rfl⟩
    · exact h.gc_own b o hb hg
    · rfl
  · intro b o b' o' hb hb' hg hg' he
    rcases getElem?_snoc hb with hb | ⟨rfl, rfl⟩
    · rcases getElem?_snoc hb' with hb' | ⟨rfl, rfl⟩
      · exact h.gc_unique b o b' o' hb hb' hg hg' he
      · have := h.known b o hb (by rw [he])
        rw [he] at this; simp at this
    · rcases getElem?_snoc hb' with hb' | ⟨rfl, rfl⟩
      · have := h.known b' o' hb' (by rw [← he])
        rw [← he] at this; simp at this
      · rfl
  · intro n hn'
    simp only at hn'
    rcases Nat.lt_or_eq_of_le (Nat.le_of_lt_succ hn') with hlt | rfl
    · obtain ⟨b, o, h1, h2, h3⟩ := h.owned n hlt
      exact ⟨b, o, snoc_old h1, h2, h3⟩
    · exact ⟨p.heap.length, ⟨⟨p.rank, p.counter⟩, true, 1⟩, by simp, rfl, rfl⟩
  · intro b o hb hg
    rcases getElem?_snoc hb with hb | ⟨rfl, rfl⟩
    · exact h.count_gc b o hb hg
    · simp only
      exact h.count_other _ (Or.inr (Nat.le_refl _))
  · intro id hid
    refine h.count_other id ?_
    simp only at hid
    omega

/-- The last reference to an object goes away. -/
theorem good_die {p : Proc} (h : Good p) (a : Nat) (o : IdObj) (ha : p.heap[a]? = some o) (hr : o.refs = 1) :
    Good { p with heap := p.heap.modify a (fun o => { o with refs := 0 }),
                  instances := p.instances.filter (fun e => e.2 ≠ a),
                  reported := if o.gc then p.reported ++ [o.id] else p.reported } := by
  have key2 : ∀ (b : Nat) (o : IdObj), p.heap[b]? = some o →
      ∃ o₁ : IdObj, (p.heap.modify a fun o => { o with refs := 0 })[b]? = some o₁ ∧ o₁.id = o.id ∧ o₁.gc = o.gc ∧
        (b ≠ a → o₁ = o) := by
    intro b o hb
    refine ⟨_, modify_some hb, ?_⟩
    by_cases hba : b = a
    · simp [hba]
    · simp [hba]
  constructor
  · intro i b hb
    rw [List.mem_filter] at hb
    have hba : b ≠ a := by simpa using hb.2
    obtain ⟨o', h1, h2, h3⟩ := h.mem_alive i b hb.1
    obtain ⟨o₁, g1, g2, g3, g4⟩ := key2 b o' h1
    have := g4 hba
    subst this
    exact ⟨o₁, g1, h2, h3⟩
  · intro b o' hb hr'
    rcases getElem?_modify_cases hb with ⟨hba, h1⟩ | ⟨rfl, o₀, h1, rfl⟩
    · exact find_filter_ne (h.alive_find b o' h1 hr') hba
    · simp at hr'
  · intro b o' hb hr'
    rcases getElem?_modify_cases hb with ⟨hba, h1⟩ | ⟨rfl, o₀, h1, rfl⟩
    · exact h.known b o' h1 hr'
    · exact h.known b o₀ h1 hr'
  · intro b o' hb hg
    rcases getElem?_modify_cases hb with ⟨hba, h1⟩ | ⟨rfl, o₀, h1, rfl⟩
    · exact h.gc_own b o' h1 hg
    · exact h.gc_own b o₀ h1 hg
  · intro b o' b' o'' hb hb' hg hg' he
    rcases getElem?_modify_cases hb with ⟨hba, h1⟩ | ⟨rfl, o₀, h1, rfl⟩ <;>
    rcases getElem?_modify_cases hb' with ⟨hba', h1'⟩ | ⟨rfl, o₀', h1', rfl⟩ <;>
    exact h.gc_unique _ _ _ _ h1 h1' hg hg' he
  · intro n hn
    obtain ⟨b, o', h1, h2, h3⟩ := h.owned n hn
    obtain ⟨o₁, g1, g2, g3, g4⟩ := key2 b o' h1
    exact ⟨b, o₁, g1, g2.trans h2, g3.trans h3⟩
  · intro b o' hb hg
    rcases getElem?_modify_cases hb with ⟨hba, h1⟩ | ⟨rfl, o₀, h1, rfl⟩
    · have hc := h.count_gc b o' h1 hg
      simp only
      split
      · rename_i hgo
        have hne : o.id ≠ o'.id := fun he => hba (h.gc_unique b o' a o h1 ha hg hgo he.symm)
        rw [List.count_append, hc, List.count_singleton]
        simp [hne]
      · exact hc
    · rw [ha] at h1
      injection h1 with h1
      subst h1
      have hc := h.count_gc b o ha hg
      simp only at hg
      simp only [hg, if_true, List.count_append, hc, hr, List.count_singleton]
      simp
  · intro id hid
    have hc := h.count_other id hid
    simp only
    split
    · rename_i hgo
      have h1 := h.gc_own a o ha hgo
      have h2 := h.known a o ha h1
      have hne : o.id ≠ id := by
        rintro rfl
        simp only at hid
        omega
      rw [List.count_append, hc, List.count_singleton]
      simp [hne]
    · exact hc

theorem good_new {p : Proc} (h : Good p) (id : DataId) (hid : id.rank = p.rank → id.num < p.counter) :
    Good (p.new id).2 ∧ (p.new id).2.rank = p.rank ∧ (p.new id).2.counter = p.counter := by
  unfold Proc.new
  split
  · refine ⟨good_modify h _ _ ?_, rfl, rfl⟩
    intro o ho
    obtain ⟨o', h1, h2, h3⟩ := h.mem_alive _ _ (find_mem ‹_›)
    rw [ho] at h1
    injection h1 with h1
    subst h1
    refine ⟨rfl, rfl, ?_⟩
    simp only
    omega
  · exact ⟨good_append h id ‹_› hid, rfl, rfl⟩

theorem new_id {p : Proc} (h : Good p) (id : DataId) (o : IdObj) (ho : (p.new id).2.heap[(p.new id).1]? = some o) :
    o.id = id := by
  unfold Proc.new at ho
  split at ho
  · rename_i a hf
    obtain ⟨o', h1, h2, h3⟩ := h.mem_alive _ _ (find_mem hf)
    simp only at ho
    rw [modify_some h1] at ho
    simp at ho
    rw [← ho]
    exact h2
  · simp at ho
    rw [← ho]

theorem good_step {p : Proc} (h : Good p) (e : Ev) (ha : p.allowed e = true) : Good (p.step e) := by
  cases e with
  | create =>
    have hn : find ⟨p.rank, p.counter⟩ p.instances = none := by
      cases hf : find ⟨p.rank, p.counter⟩ p.instances with
      | none => rfl
      | some a =>
        obtain ⟨o, h1, h2, h3⟩ := h.mem_alive _ _ (find_mem hf)
        have := h.known a o h1 (by rw [h2])
        rw [h2] at this
        simp at this
    have := good_create h hn
    simp only [Proc.step, Proc.new, hn, Proc.setGc]
    have e : (p.heap ++ [(⟨⟨p.rank, p.counter⟩, false, 1⟩ : IdObj)]).modify p.heap.length (fun o => { o with gc := true }) =
        p.heap ++ [⟨⟨p.rank, p.counter⟩, true, 1⟩] := by
      apply List.ext_getElem?
      intro i
      rw [List.getElem?_modify]
      rcases Nat.lt_trichotomy i p.heap.length with hi | hi | hi
      · have : ¬ p.heap.length = i := by omega
        simp [this, List.getElem?_append_left hi]
      · subst hi; simp
      · have : ¬ p.heap.length = i := by omega
        simp [this]
        rw [List.getElem?_eq_none (by simp; omega), List.getElem?_eq_none (by simp; omega)]
    rw [e]
    exact this
  | receive id =>
    refine (good_new h id ?_).1
    intro hr
    simp only [Proc.allowed, Bool.or_eq_true, decide_eq_true_eq] at ha
    rcases ha with ha | ha
    · exact absurd hr ha
    · exact ha
  | cleanup id =>
    simp only [Proc.allowed, decide_eq_true_eq] at ha
    obtain ⟨h1, h2, -⟩ := good_new h id (fun hr => absurd hr ha)
    simp only [Proc.step, Proc.setGc]
    refine good_modify h1 _ _ ?_
    intro o ho
    have hid := new_id h id o ho
    refine ⟨rfl, ?_, Iff.rfl⟩
    cases hg : o.gc with
    | false => rfl
    | true =>
      have := h1.gc_own _ o ho hg
      rw [hid, h2] at this
      exact absurd this ha
  | copy a =>
    simp only [Proc.step]
    split
    · rename_i o ho
      split
      · exact h
      · refine good_modify h _ _ ?_
        intro o' ho'
        rw [ho] at ho'
        injection ho' with ho'
        subst ho'
        refine ⟨rfl, rfl, ?_⟩
        simp only
        omega
    · exact h
  | drop a =>
    simp only [Proc.step, Proc.drop]
    split
    · exact h
    · rename_i o ho
      split
      · exact h
      · split
        · exact good_die h a o ho ‹_›
        · refine good_modify h _ _ ?_
          intro o' ho'
          rw [ho] at ho'
          injection ho' with ho'
          subst ho'
          refine ⟨rfl, rfl, ?_⟩
          simp only
          omega

theorem good_run {p p' : Proc} (es : List Ev) (h : Good p) (hr : p.run es = some p') : Good p' := by
  induction es generalizing p with
  | nil => simp only [Proc.run, Option.some.injEq] at hr; exact hr ▸ h
  | cons e t ih =>
    simp only [Proc.run] at hr
    split at hr
    · exact ih (good_step h e ‹_›) hr
    · cases hr

end Verif.Ids
