import Verif.Model.Comm

namespace Verif.Comm

theorem recv_cons {q : Inbox} {s : Nat} {t : Tag} {p : Payload} {rest : List Payload} (h : q s t = p :: rest) :
    ∃ q', recv q s t = some (p, q') ∧ q' s t = rest ∧ ∀ s' t', ¬ (s' = s ∧ t' = t) → q' s' t' = q s' t' := by
  refine ⟨fun s' t' => if s' = s ∧ t' = t then rest else q s' t', ?_, ?_, ?_⟩
  · simp [recv, h]
  · simp
  · intro s' t' hn
    simp only [if_neg hn]

/-- Cut points from `c` through `ps` up to `n`. -/
def ChainTo (n : Nat) : Nat → List Nat → Prop
  | c, [] => c = n
  | c, p :: ps => c ≤ p ∧ ChainTo n p ps

theorem chain_le {n : Nat} (ps : List Nat) : ∀ {c : Nat}, ChainTo n c ps → c ≤ n := by
  induction ps with
  | nil => intro c h; exact Nat.le_of_eq h
  | cons p t ih => intro c h; exact Nat.le_trans h.1 (ih h.2)

theorem pairs_cons (c p : Nat) (ps : List Nat) : pairs (c :: p :: ps) = (c, p) :: pairs (p :: ps) := rfl

theorem pairs_single (c : Nat) : pairs [c] = [] := rfl

/-- The block `b[i:j]`. -/
def blk (b : Bytes) (p : Nat × Nat) : Bytes := (b.drop p.1).take (p.2 - p.1)

theorem recvBlocks_chain {s : Nat} {b : Bytes} {rest : List Payload} (ps : List Nat) :
    ∀ (c : Nat) (q : Inbox) (buf : Bytes), ChainTo b.length c ps → buf.length = b.length →
      buf.take c = b.take c →
      q s .buffer = (pairs (c :: ps)).map (fun p => .bytes (blk b p)) ++ rest →
      ∃ q', recvBlocks s q buf (pairs (c :: ps)) = some (b, q') ∧ q' s .buffer = rest ∧
        ∀ s' t', ¬ (s' = s ∧ t' = .buffer) → q' s' t' = q s' t' := by
  induction ps with
  | nil =>
    intro c q buf hc hl ht hq
    have hc : c = b.length := hc
    refine ⟨q, ?_, by simpa [pairs_single] using hq, fun _ _ _ => rfl⟩
    have : buf = b := by
      rw [hc, List.take_length, ← hl, List.take_length] at ht
      exact ht
    simp [pairs_single, recvBlocks, this]
  | cons p t ih =>
    intro c q buf hc hl ht hq
    have hpn := chain_le t hc.2
    have hcp := hc.1
    rw [pairs_cons, List.map_cons, List.cons_append] at hq
    obtain ⟨q1, r1, r2, r3⟩ := recv_cons hq
    have hblk : (blk b (c, p)).length = p - c := by
      simp only [blk, List.length_take, List.length_drop]
      omega
    have hbc : buf.take c ++ blk b (c, p) = b.take p := by
      rw [ht, blk]
      have : p = c + (p - c) := by omega
      conv => rhs; rw [this]
      rw [List.take_add]
    obtain ⟨q2, i1, i2, i3⟩ := ih p q1 (putBlock buf c p (blk b (c, p))) hc.2
      (by
        simp only [putBlock, List.length_append, List.length_take, List.length_drop, hblk]
        omega)
      (by
        unfold putBlock
        rw [hbc, List.take_append_of_le_length (by rw [List.length_take]; omega), List.take_take, Nat.min_self])
      r2
    refine ⟨q2, ?_, i2, ?_⟩
    · rw [pairs_cons]
      simp only [recvBlocks, r1, hblk, if_true]
      exact i1
    · intro s' t' hn
      rw [i3 s' t' hn, r3 s' t' hn]

theorem chain_range (n b : Nat) : ∀ (m i : Nat), (∀ j, j < i + m → j * b ≤ n) →
    ∃ c ps, (List.range' i m).map (· * b) ++ [n] = c :: ps ∧ ChainTo n c ps ∧ (m = 0 → c = n) ∧ (0 < m → c = i * b) := by
  intro m
  induction m with
  | zero => intro i _; exact ⟨n, [], rfl, rfl, fun _ => rfl, by simp⟩
  | succ m ih =>
    intro i h
    obtain ⟨c, ps, e, hc, h0, h1⟩ := ih (i + 1) (fun j hj => h j (by omega))
    refine ⟨i * b, c :: ps, ?_, ⟨?_, hc⟩, by simp, fun _ => rfl⟩
    · rw [List.range'_succ, List.map_cons, List.cons_append, e]
    · rcases Nat.eq_zero_or_pos m with hm | hm
      · rw [h0 hm]; exact h i (by omega)
      · rw [h1 hm, Nat.add_mul]; omega

theorem partitions_chain {n b : Nat} (hb : 0 < b) :
    ∃ ps, partitions n b = 0 :: ps ∧ ChainTo n 0 ps := by
  have hj : ∀ j, j < 0 + (n + b - 1) / b → j * b ≤ n := by
    intro j hj
    have h1 : (n + b - 1) / b * b ≤ n + b - 1 := Nat.div_mul_le_self _ _
    have h2 : (j + 1) * b ≤ (n + b - 1) / b * b := Nat.mul_le_mul_right b (by omega)
    rw [Nat.add_mul] at h2
    omega
  obtain ⟨c, ps, e, hc, h0, h1⟩ := chain_range n b ((n + b - 1) / b) 0 hj
  have hc0 : c = 0 := by
    rcases Nat.eq_zero_or_pos ((n + b - 1) / b) with hm | hm
    · rw [h0 hm]
      rcases Nat.div_eq_zero_iff.1 hm with h | h <;> omega
    · rw [h1 hm]; simp
  subst hc0
  refine ⟨ps, ?_, hc⟩
  unfold partitions
  rw [List.range_eq_range']
  exact e

theorem sendBlocks_inbox (s block : Nat) (b : Bytes) (rest : List Msg) :
    ((sendBlocks s block b ++ rest).filter fun m => m.src = s ∧ m.tag = .buffer).map (·.payload) =
      (pairs (partitions b.length block)).map (fun p => Payload.bytes (blk b p)) ++
        (rest.filter fun m => m.src = s ∧ m.tag = .buffer).map (·.payload) := by
  rw [List.filter_append, List.map_append]
  congr 1
  unfold sendBlocks
  rw [List.filter_eq_self.2, List.map_map]
  · rfl
  · intro m hm
    obtain ⟨p, -, rfl⟩ := List.mem_map.1 hm
    simp

theorem inbox_of_filter {msgs ms : List Msg} {s : Nat} (h : msgs.filter (·.src = s) = ms) (t : Tag) :
    inboxOf msgs s t = (ms.filter fun m => m.src = s ∧ m.tag = t).map (·.payload) := by
  subst h
  unfold inboxOf
  rw [List.filter_filter]
  congr 1
  apply List.filter_congr
  intro m _
  by_cases h1 : m.src = s <;> simp [h1]

theorem recvBufferInto_spec {s block : Nat} {b buf : Bytes} {q : Inbox} {rest : List Payload} (hb : 0 < block)
    (hl : buf.length = b.length)
    (hq : q s .buffer = (pairs (partitions b.length block)).map (fun p => Payload.bytes (blk b p)) ++ rest) :
    ∃ q', recvBufferInto s block q buf = some (b, q') ∧ q' s .buffer = rest ∧
      ∀ s' t', ¬ (s' = s ∧ t' = .buffer) → q' s' t' = q s' t' := by
  obtain ⟨ps, e, hc⟩ := partitions_chain (n := b.length) hb
  unfold recvBufferInto
  rw [hl]
  rw [e] at hq ⊢
  exact recvBlocks_chain ps 0 q buf hc hl (by simp) hq

/-! ## Packages -/

/-- Bytes of a package in the order of sending. -/
def pkgBytes (p : Package) : List Payload := .bytes p.sData :: p.rawBuffers.map .bytes

theorem recvBytes_cons {q : Inbox} {s : Nat} {b : Bytes} {rest : List Payload}
    (h : q s .buffer = .bytes b :: rest) :
    ∃ q', recvBytes q s b.length = some (b, q') ∧ q' s .buffer = rest ∧
      ∀ s' t', ¬ (s' = s ∧ t' = .buffer) → q' s' t' = q s' t' := by
  obtain ⟨q', h1, h2, h3⟩ := recv_cons h
  exact ⟨q', by simp [recvBytes, h1], h2, h3⟩

theorem recvRaws_spec {s : Nat} {rest : List Payload} (bs : List Bytes) : ∀ (q : Inbox),
    q s .buffer = bs.map .bytes ++ rest →
    ∃ q', recvRaws s q (bs.map List.length) = some (bs, q') ∧ q' s .buffer = rest ∧
      ∀ s' t', ¬ (s' = s ∧ t' = .buffer) → q' s' t' = q s' t' := by
  induction bs with
  | nil => intro q h; exact ⟨q, rfl, by simpa using h, fun _ _ _ => rfl⟩
  | cons b t ih =>
    intro q h
    obtain ⟨q1, r1, r2, r3⟩ := recvBytes_cons (q := q) (s := s) (b := b) (rest := t.map .bytes ++ rest) (by simpa using h)
    obtain ⟨q2, i1, i2, i3⟩ := ih q1 r2
    refine ⟨q2, by simp [recvRaws, r1, i1], i2, ?_⟩
    intro s' t' hn
    rw [i3 s' t' hn, r3 s' t' hn]

theorem infoTag_ne_buffer (b : Bool) : infoTag b ≠ .buffer := by cases b <;> decide

theorem pull_spec {q : Inbox} {s : Nat} {p : Package} {A B : List Payload}
    (h1 : q s (infoTag p.blocking) = .info p.info :: A) (h2 : q s .buffer = pkgBytes p ++ B) :
    ∃ q', pull q s p.blocking = some (p, q') ∧ q' s (infoTag p.blocking) = A ∧ q' s .buffer = B ∧
      ∀ s' t', ¬ (s' = s ∧ (t' = infoTag p.blocking ∨ t' = .buffer)) → q' s' t' = q s' t' := by
  obtain ⟨q1, a1, a2, a3⟩ := recv_cons h1
  have hb1 : q1 s .buffer = .bytes p.sData :: (p.rawBuffers.map .bytes ++ B) := by
    rw [a3 s .buffer (by intro h; exact infoTag_ne_buffer _ h.2.symm), h2]
    rfl
  obtain ⟨q2, b1, b2, b3⟩ := recvBytes_cons hb1
  obtain ⟨q3, c1, c2, c3⟩ := recvRaws_spec _ q2 b2
  refine ⟨q3, ?_, ?_, c2, ?_⟩
  · simp [pull, a1, Package.info, b1, c1]
  · rw [c3 _ _ (by intro h; exact infoTag_ne_buffer _ h.2), b3 _ _ (by intro h; exact infoTag_ne_buffer _ h.2), a2]
  · intro s' t' hn
    rw [c3 _ _ (by intro h; exact hn ⟨h.1, Or.inr h.2⟩), b3 _ _ (by intro h; exact hn ⟨h.1, Or.inr h.2⟩),
      a3 _ _ (by intro h; exact hn ⟨h.1, Or.inl h.2⟩)]

/-- Queues that hold exactly the packages `P s` of every source. -/
def Holds (P : Nat → List Package) (q : Inbox) : Prop :=
  ∀ s, q s .buffer = (P s).flatMap pkgBytes ∧
    ∀ b, q s (infoTag b) = ((P s).filter (·.blocking = b)).map fun p => .info p.info

theorem pull_head {P : Nat → List Package} {q : Inbox} {s : Nat} {p : Package} {t : List Package}
    (hq : Holds P q) (hP : P s = p :: t) :
    ∃ q', pull q s p.blocking = some (p, q') ∧ Holds (fun x => if x = s then t else P x) q' := by
  have h := hq s
  rw [hP] at h
  have hi := h.2 p.blocking
  rw [List.filter_cons_of_pos (by simp), List.map_cons] at hi
  obtain ⟨q', a1, a2, a3, a4⟩ := pull_spec hi (by rw [h.1, List.flatMap_cons])
  refine ⟨q', a1, ?_⟩
  intro x
  by_cases hx : x = s
  · subst hx
    simp only [if_true]
    refine ⟨a3, ?_⟩
    intro b
    by_cases hb : b = p.blocking
    · subst hb; exact a2
    · rw [a4 x (infoTag b), h.2 b, List.filter_cons_of_neg (by simpa using fun e => hb e.symm)]
      rintro ⟨-, hh⟩
      rcases hh with hh | hh
      · revert hh hb; cases b <;> cases p.blocking <;> decide
      · exact infoTag_ne_buffer _ hh
  · simp only [if_neg hx]
    refine ⟨?_, ?_⟩
    · rw [a4 x .buffer (by intro hh; exact hx hh.1)]; exact (hq x).1
    · intro b
      rw [a4 x _ (by intro hh; exact hx hh.1)]; exact (hq x).2 b

theorem pullAll_spec (sched : List (Nat × Bool)) : ∀ (P : Nat → List Package) (q : Inbox), Holds P q →
    (∀ s, ((sched.filter (·.1 = s)).map (·.2)) <+: (P s).map (·.blocking)) →
    ∃ got q', pullAll q sched = some (got, q') ∧ got.map (·.1) = sched.map (·.1) ∧
      ∀ s, (got.filter (·.1 = s)).map (·.2) <+: P s := by
  induction sched with
  | nil => intro P q _ _; exact ⟨[], q, rfl, rfl, by simp⟩
  | cons a rest ih =>
    intro P q hq hs
    obtain ⟨s, b⟩ := a
    have h0 := hs s
    rw [List.filter_cons_of_pos (by simp), List.map_cons] at h0
    cases hP : P s with
    | nil => rw [hP] at h0; simp at h0
    | cons p t =>
      rw [hP, List.map_cons, List.cons_prefix_cons] at h0
      obtain ⟨hb, h0⟩ := h0
      simp only at hb
      obtain ⟨q1, p1, p2⟩ := pull_head hq hP
      obtain ⟨got, q2, g1, g2, g3⟩ := ih (fun x => if x = s then t else P x) q1 p2 (by
        intro x
        by_cases hx : x = s
        · subst hx; simpa using h0
        · have := hs x
          rw [List.filter_cons_of_neg (by simpa using fun e => hx e.symm)] at this
          simpa [hx] using this)
      refine ⟨(s, p) :: got, q2, ?_, ?_, ?_⟩
      · simp [pullAll, hb, p1, g1]
      · simp [g2]
      · intro x
        have := g3 x
        by_cases hx : x = s
        · subst hx
          rw [List.filter_cons_of_pos (by simp), List.map_cons, hP, List.cons_prefix_cons]
          exact ⟨rfl, by simpa using this⟩
        · rw [List.filter_cons_of_neg (by simpa using fun e => hx e.symm)]
          simpa [hx] using this

theorem filter_package_buffer (s : Nat) (p : Package) :
    ((sendPackage s p).filter fun m => m.src = s ∧ m.tag = .buffer).map (·.payload) = pkgBytes p := by
  have hr : ∀ bs : List Bytes, ((bs.map fun b => (⟨s, .buffer, .bytes b⟩ : Msg)).filter
      fun m => m.src = s ∧ m.tag = .buffer).map (·.payload) = bs.map .bytes := by
    intro bs
    rw [List.filter_eq_self.2]
    · simp
    · intro m hm
      obtain ⟨b, -, rfl⟩ := List.mem_map.1 hm
      simp
  unfold sendPackage pkgBytes
  rw [List.filter_cons_of_neg (by simpa using infoTag_ne_buffer _), List.filter_cons_of_pos (by simp), List.map_cons, hr]

theorem filter_package_info (s : Nat) (p : Package) (b : Bool) :
    ((sendPackage s p).filter fun m => m.src = s ∧ m.tag = infoTag b).map (·.payload) =
      if p.blocking = b then [.info p.info] else [] := by
  have hr : ∀ bs : List Bytes, ((bs.map fun b => (⟨s, .buffer, .bytes b⟩ : Msg)).filter
      fun m => m.src = s ∧ m.tag = infoTag b) = [] := by
    intro bs
    rw [List.filter_eq_nil_iff]
    intro m hm
    obtain ⟨x, -, rfl⟩ := List.mem_map.1 hm
    simpa using fun e => infoTag_ne_buffer b e.symm
  unfold sendPackage
  by_cases hb : p.blocking = b
  · subst hb
    rw [List.filter_cons_of_pos (by simp),
      List.filter_cons_of_neg (by simpa using fun e => infoTag_ne_buffer _ e.symm), hr]
    simp
  · rw [List.filter_cons_of_neg, List.filter_cons_of_neg (by simpa using fun e => infoTag_ne_buffer _ e.symm), hr]
    · simp [hb]
    · simp only [true_and, decide_eq_true_eq]
      revert hb
      cases b <;> cases p.blocking <;> decide

theorem holds_of_sent {msgs : List Msg} {P : Nat → List Package}
    (h : ∀ s, msgs.filter (·.src = s) = (P s).flatMap (sendPackage s)) : Holds P (inboxOf msgs) := by
  have hflat : ∀ (f : Msg → Bool) (g : Package → List Payload) (s : Nat) (l : List Package),
      (∀ p, ((sendPackage s p).filter f).map (·.payload) = g p) →
      ((l.flatMap (sendPackage s)).filter f).map (·.payload) = l.flatMap g := by
    intro f g s l hp
    induction l with
    | nil => rfl
    | cons a t ih => simp only [List.flatMap_cons, List.filter_append, List.map_append, hp, ih]
  intro s
  refine ⟨?_, ?_⟩
  · rw [inbox_of_filter (h s)]
    exact hflat _ _ s _ (filter_package_buffer s)
  · intro b
    rw [inbox_of_filter (h s), hflat _ _ s _ (fun p => filter_package_info s p b)]
    generalize P s = l
    induction l with
    | nil => rfl
    | cons a t ih =>
      rw [List.flatMap_cons, ih]
      by_cases hb : a.blocking = b <;> simp [hb]

theorem recvBytes_some {q q' : Inbox} {s n : Nat} {b : Bytes} (h : recvBytes q s n = some (b, q')) :
    q s .buffer = .bytes b :: q' s .buffer := by
  unfold recvBytes recv at h
  cases hq : q s .buffer with
  | nil => rw [hq] at h; cases h
  | cons x t =>
    rw [hq] at h
    cases x with
    | bytes c =>
      simp only at h
      split at h
      · simp only [Option.some.injEq, Prod.mk.injEq] at h
        obtain ⟨rfl, rfl⟩ := h
        simp
      · cases h
    | size _ => cases h
    | info _ => cases h

theorem recvRaws_some {s : Nat} (ls : List Nat) : ∀ {q q' : Inbox} {bs : List Bytes}, recvRaws s q ls = some (bs, q') →
    q s .buffer = bs.map .bytes ++ q' s .buffer := by
  induction ls with
  | nil =>
    intro q q' bs h
    simp only [recvRaws, Option.some.injEq, Prod.mk.injEq] at h
    obtain ⟨rfl, rfl⟩ := h
    rfl
  | cons n t ih =>
    intro q q' bs h
    simp only [recvRaws] at h
    split at h
    · cases h
    · rename_i b q1 h1
      split at h
      · cases h
      · rename_i bs' q2 h2
        simp only [Option.some.injEq, Prod.mk.injEq] at h
        obtain ⟨rfl, rfl⟩ := h
        rw [recvBytes_some h1, ih h2]
        rfl

theorem pull_some {q q' : Inbox} {s : Nat} {b : Bool} {p : Package} (h : pull q s b = some (p, q')) :
    p.blocking = b ∧ pkgBytes p <+: q s .buffer := by
  unfold pull at h
  split at h
  · rename_i i q1 h1
    split at h
    · cases h
    · rename_i sd q2 h2
      split at h
      · cases h
      · rename_i raws q3 h3
        simp only [Option.some.injEq, Prod.mk.injEq] at h
        obtain ⟨rfl, rfl⟩ := h
        have hq1 : q1 s .buffer = q s .buffer := by
          unfold recv at h1
          split at h1
          · cases h1
          · simp only [Option.some.injEq, Prod.mk.injEq] at h1
            obtain ⟨-, rfl⟩ := h1
            exact if_neg fun hh => infoTag_ne_buffer _ hh.2.symm
        refine ⟨rfl, q3 s .buffer, ?_⟩
        rw [← hq1, recvBytes_some h2, recvRaws_some _ h3]
        rfl
  · cases h

end Verif.Comm
