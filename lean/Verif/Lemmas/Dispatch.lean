import Verif.Model.Dispatch

namespace Verif.Dispatch

/-- Replace one queue. -/
def upd (q : Inbox) (s t : Nat) (l : List Payload) : Inbox := fun s' t' => if s' = s ∧ t' = t then l else q s' t'

theorem recv_cons {q : Inbox} {s t : Nat} {p : Payload} {l : List Payload} (h : q s t = p :: l) :
    recv q s t = some (p, upd q s t l) := by
  simp only [recv, h]; rfl

theorem upd_same (q : Inbox) (s t : Nat) (l : List Payload) : upd q s t l s t = l := by simp [upd]

theorem upd_tag {q : Inbox} {s t t' : Nat} {l : List Payload} (h : t' ≠ t) : upd q s t l s t' = q s t' := by
  simp [upd, h]

theorem upd_src {q : Inbox} {s s' t t' : Nat} {l : List Payload} (h : s' ≠ s) : upd q s t l s' t' = q s' t' := by
  simp [upd, h]

theorem inboxOf_append (a b : List Msg) (s t : Nat) : inboxOf (a ++ b) s t = inboxOf a s t ++ inboxOf b s t := by
  simp [inboxOf]

theorem inboxOf_cons (m : Msg) (ms : List Msg) (s t : Nat) :
    inboxOf (m :: ms) s t = if m.src = s ∧ m.tag = t then m.payload :: inboxOf ms s t else inboxOf ms s t := by
  unfold inboxOf
  by_cases h : m.src = s ∧ m.tag = t
  · rw [List.filter_cons_of_pos (by simpa using h), if_pos h, List.map_cons]
  · rw [List.filter_cons_of_neg (by simpa using h), if_neg h]

theorem inboxOf_nil (s t : Nat) : inboxOf [] s t = [] := rfl

theorem inboxOf_buffers {α : Type} (f : α → Bytes) (l : List α) (s t : Nat) :
    inboxOf (l.map fun b => ⟨s, tagBuffer, .bytes (f b)⟩) s t = if t = tagBuffer then l.map fun b => .bytes (f b) else [] := by
  induction l with
  | nil => by_cases h : t = tagBuffer <;> simp [h, inboxOf]
  | cons a l ih =>
    rw [List.map_cons, inboxOf_cons, ih]
    by_cases h : t = tagBuffer
    · subst h; simp
    · rw [if_neg h, if_neg h, if_neg (by rintro ⟨-, e⟩; exact h e.symm)]

/-- The three queues of a source hold `o`, `x`, `b` in front of `rest`. -/
structure Front (q : Inbox) (s : Nat) (o x b : List Payload) (rest : Nat → List Payload) : Prop where
  op : q s tagOperation = o ++ rest tagOperation
  object : q s tagObject = x ++ rest tagObject
  buffer : q s tagBuffer = b ++ rest tagBuffer
  others : ∀ t, t ≠ tagOperation → t ≠ tagObject → t ≠ tagBuffer → q s t = rest t

/-- `q'` is `q` with `rest` at source `s`. -/
def Left (q q' : Inbox) (s : Nat) (rest : Nat → List Payload) : Prop :=
  (∀ t, q' s t = rest t) ∧ ∀ s' t, s' ≠ s → q' s' t = q s' t

theorem Left.trans {q q1 q2 : Inbox} {s : Nat} {r1 r2 : Nat → List Payload} (h1 : Left q q1 s r1) (h2 : Left q1 q2 s r2) :
    Left q q2 s r2 := ⟨h2.1, fun s' t hs => by rw [h2.2 s' t hs, h1.2 s' t hs]⟩

theorem Front.done {q : Inbox} {s : Nat} {rest : Nat → List Payload} (h : Front q s [] [] [] rest) : Left q q s rest := by
  refine ⟨fun t => ?_, fun _ _ _ => rfl⟩
  by_cases h1 : t = tagOperation
  · subst h1; simpa using h.op
  · by_cases h2 : t = tagObject
    · subst h2; simpa using h.object
    · by_cases h3 : t = tagBuffer
      · subst h3; simpa using h.buffer
      · exact h.others t h1 h2 h3

theorem Front.takeOp {q : Inbox} {s : Nat} {p : Payload} {o x b : List Payload} {rest : Nat → List Payload}
    (h : Front q s (p :: o) x b rest) : ∃ q', recv q s tagOperation = some (p, q') ∧ Front q' s o x b rest ∧
      ∀ s' t, s' ≠ s → q' s' t = q s' t := by
  refine ⟨_, recv_cons h.op, ⟨upd_same .., ?_, ?_, ?_⟩, fun s' t hs => upd_src hs⟩
  · exact (upd_tag (by decide)).trans h.object
  · exact (upd_tag (by decide)).trans h.buffer
  · intro t h1 h2 h3; exact (upd_tag h1).trans (h.others t h1 h2 h3)

theorem Front.takeObject {q : Inbox} {s : Nat} {p : Payload} {o x b : List Payload} {rest : Nat → List Payload}
    (h : Front q s o (p :: x) b rest) : ∃ q', recv q s tagObject = some (p, q') ∧ Front q' s o x b rest ∧
      ∀ s' t, s' ≠ s → q' s' t = q s' t := by
  refine ⟨_, recv_cons h.object, ⟨?_, upd_same .., ?_, ?_⟩, fun s' t hs => upd_src hs⟩
  · exact (upd_tag (by decide)).trans h.op
  · exact (upd_tag (by decide)).trans h.buffer
  · intro t h1 h2 h3; exact (upd_tag h2).trans (h.others t h1 h2 h3)

theorem Front.takeBuffer {q : Inbox} {s : Nat} {p : Payload} {o x b : List Payload} {rest : Nat → List Payload}
    (h : Front q s o x (p :: b) rest) : ∃ q', recv q s tagBuffer = some (p, q') ∧ Front q' s o x b rest ∧
      ∀ s' t, s' ≠ s → q' s' t = q s' t := by
  refine ⟨_, recv_cons h.buffer, ⟨?_, ?_, upd_same .., ?_⟩, fun s' t hs => upd_src hs⟩
  · exact (upd_tag (by decide)).trans h.op
  · exact (upd_tag (by decide)).trans h.object
  · intro t h1 h2 h3; exact (upd_tag h3).trans (h.others t h1 h2 h3)

theorem front_of {q : Inbox} {s : Nat} {ms : List Msg} {o x b : List Payload} {rest : Nat → List Payload}
    (h : ∀ t, q s t = inboxOf ms s t ++ rest t) (h1 : inboxOf ms s tagOperation = o) (h2 : inboxOf ms s tagObject = x)
    (h3 : inboxOf ms s tagBuffer = b)
    (h4 : ∀ t, t ≠ tagOperation → t ≠ tagObject → t ≠ tagBuffer → inboxOf ms s t = []) : Front q s o x b rest :=
  ⟨by rw [h, h1], by rw [h, h2], by rw [h, h3], fun t a b c => by rw [h, h4 t a b c, List.nil_append]⟩

theorem front_op {q : Inbox} {s : Nat} {o : Op} {rest : Nat → List Payload}
    (h : ∀ t, q s t = inboxOf (sendOperation s o) s t ++ rest t) : Front q s [.op o.code] [] [] rest := by
  refine front_of h ?_ ?_ ?_ ?_ <;> simp [sendOperation, inboxOf_cons, inboxOf_nil, tagOperation, tagObject, tagBuffer]
  intro t h1 _ _ h; exact h1 h.symm

theorem front_simple {q : Inbox} {s : Nat} {o : Op} {p : Payload} {rest : Nat → List Payload}
    (h : ∀ t, q s t = inboxOf (sendSimple s o p) s t ++ rest t) : Front q s [.op o.code] [p] [] rest := by
  refine front_of h ?_ ?_ ?_ ?_ <;>
    simp [sendSimple, sendObject, sendOperation, inboxOf_cons, inboxOf_nil, tagOperation, tagObject, tagBuffer]
  intro t h1 h2 _
  rw [if_neg (fun e => h1 e.symm), if_neg (fun e => h2 e.symm)]

theorem inboxOf_sendData (s : Nat) (i : Info) (d : Data) (t : Nat) :
    inboxOf (sendData s i d) s t =
      if t = tagObject then [.info i] else if t = tagBuffer then (d.sData :: d.rawBuffers).map .bytes else [] := by
  unfold sendData
  rw [inboxOf_cons, inboxOf_cons, inboxOf_buffers (fun b => b)]
  by_cases h1 : t = tagObject
  · subst h1; simp [tagObject, tagBuffer]
  · by_cases h2 : t = tagBuffer
    · subst h2; simp [tagObject, tagBuffer]
    · simp only [if_neg h1, if_neg h2]
      rw [if_neg (by rintro ⟨-, e⟩; exact h1 e.symm), if_neg (by rintro ⟨-, e⟩; exact h2 e.symm)]

theorem front_data {q : Inbox} {s : Nat} {o : Op} {i : Info} {d : Data} {rest : Nat → List Payload}
    (h : ∀ t, q s t = inboxOf (sendOperation s o ++ sendData s i d) s t ++ rest t) :
    Front q s [.op o.code] [.info i] ((d.sData :: d.rawBuffers).map .bytes) rest := by
  have e : ∀ t, inboxOf (sendOperation s o ++ sendData s i d) s t = inboxOf (sendOperation s o) s t ++
      if t = tagObject then [.info i] else if t = tagBuffer then (d.sData :: d.rawBuffers).map .bytes else [] := by
    intro t; rw [inboxOf_append, inboxOf_sendData]
  refine front_of h ?_ ?_ ?_ ?_ <;> simp only [e]
  · simp [sendOperation, inboxOf_cons, inboxOf_nil, tagOperation, tagObject, tagBuffer]
  · simp [sendOperation, inboxOf_cons, inboxOf_nil, tagOperation, tagObject]
  · simp [sendOperation, inboxOf_cons, inboxOf_nil, tagOperation, tagObject, tagBuffer]
  · intro t h1 h2 h3
    simp [sendOperation, inboxOf_cons, inboxOf_nil, h2, h3]
    exact fun e => h1 e.symm

theorem front_serialized {q : Inbox} {s block : Nat} {o : Op} {b : Bytes} {rest : Nat → List Payload}
    (h : ∀ t, q s t = inboxOf (sendSerialized s block o b) s t ++ rest t) :
    Front q s [.op o.code] [.size b.length]
      ((blocks b.length block).map fun p => .bytes ((b.drop p.1).take (p.2 - p.1))) rest := by
  have e : ∀ t, inboxOf (sendSerialized s block o b) s t = inboxOf (sendOperation s o) s t ++
      inboxOf (sendBuffer s block b) s t := by
    intro t; rw [sendSerialized, inboxOf_append]
  have e2 : ∀ t, inboxOf (sendBuffer s block b) s t = if t = tagObject then [.size b.length] else if t = tagBuffer then
      (blocks b.length block).map fun p => .bytes ((b.drop p.1).take (p.2 - p.1)) else [] := by
    intro t
    unfold sendBuffer
    rw [inboxOf_cons, inboxOf_buffers (fun p : Nat × Nat => (b.drop p.1).take (p.2 - p.1))]
    by_cases h1 : t = tagObject
    · subst h1; simp [tagObject, tagBuffer]
    · rw [if_neg (by rintro ⟨-, e⟩; exact h1 e.symm), if_neg h1]
  refine front_of h ?_ ?_ ?_ ?_ <;> simp only [e, e2]
  · simp [sendOperation, inboxOf_cons, inboxOf_nil, tagOperation, tagObject, tagBuffer]
  · simp [sendOperation, inboxOf_cons, inboxOf_nil, tagOperation, tagObject]
  · simp [sendOperation, inboxOf_cons, inboxOf_nil, tagOperation, tagObject, tagBuffer]
  · intro t h1 h2 h3
    simp [sendOperation, inboxOf_cons, inboxOf_nil, h2, h3]
    exact fun e => h1 e.symm

/-! ## Receiving -/

theorem recvAll_spec {s : Nat} {o x : List Payload} {rest : Nat → List Payload} (bs : List Bytes) : ∀ {q : Inbox},
    Front q s o x (bs.map .bytes) rest → ∃ q', recvAll s q (bs.map List.length) = some (some bs, q') ∧
      Front q' s o x [] rest ∧ ∀ s' t, s' ≠ s → q' s' t = q s' t := by
  induction bs with
  | nil => intro q h; exact ⟨q, rfl, h, fun _ _ _ => rfl⟩
  | cons b t ih =>
    intro q h
    obtain ⟨q1, r1, r2, r3⟩ := h.takeBuffer
    obtain ⟨q2, i1, i2, i3⟩ := ih r2
    refine ⟨q2, ?_, i2, fun s' t' hs => by rw [i3 s' t' hs, r3 s' t' hs]⟩
    simp [recvAll, r1, i1]

theorem recvComplex_spec {q : Inbox} {s : Nat} {o x : List Payload} {rest : Nat → List Payload} {i : Info} {d : Data}
    (hi : i.sDataLen = d.sData.length ∧ i.rawLens = d.rawBuffers.map List.length ∧ i.bufferCount = d.bufferCount)
    (h : Front q s o x ((d.sData :: d.rawBuffers).map .bytes) rest) :
    ∃ q', recvComplex q s i = some (some d, q') ∧ Front q' s o x [] rest ∧ ∀ s' t, s' ≠ s → q' s' t = q s' t := by
  obtain ⟨q', r1, r2, r3⟩ := recvAll_spec _ h
  refine ⟨q', ?_, r2, r3⟩
  unfold recvComplex
  rw [hi.1, hi.2.1, ← List.map_cons, r1, hi.2.2]

/-- Cut points from `c` through `ps` up to `n`. -/
def ChainUp (n : Nat) : Nat → List Nat → Prop
  | c, [] => c = n
  | c, p :: ps => c ≤ p ∧ ChainUp n p ps

theorem chainUp_le {n : Nat} (ps : List Nat) : ∀ {c : Nat}, ChainUp n c ps → c ≤ n := by
  induction ps with
  | nil => intro c h; exact Nat.le_of_eq h
  | cons p t ih => intro c h; exact Nat.le_trans h.1 (ih h.2)

theorem chainUp_range (n b : Nat) : ∀ (m i : Nat), (∀ j, j < i + m → j * b ≤ n) →
    ∃ c ps, (List.range' i m).map (· * b) ++ [n] = c :: ps ∧ ChainUp n c ps ∧ (m = 0 → c = n) ∧ (0 < m → c = i * b) := by
  intro m
  induction m with
  | zero => intro i _; exact ⟨n, [], rfl, rfl, fun _ => rfl, by simp⟩
  | succ m ih =>
    intro i h
    obtain ⟨c, ps, e, hc, h0, h1⟩ := ih (i + 1) (fun j hj => h j (by omega))
    refine ⟨i * b, c :: ps, ?_, ⟨?_, hc⟩, by simp, fun _ => rfl⟩
    · rw [List.range'_succ, List.map_cons, List.cons_append, e]
    · rcases Nat.eq_zero_or_pos m with hm | hm
      · rw [h0 hm]; exact h i (by omega)
      · rw [h1 hm, Nat.add_mul]; omega

theorem blocks_chain {n b : Nat} (hb : 0 < b) :
    ∃ ps, blocks n b = (0 :: ps).zip ps ∧ ChainUp n 0 ps := by
  have hj : ∀ j, j < 0 + (n + b - 1) / b → j * b ≤ n := by
    intro j hj
    have h1 : (n + b - 1) / b * b ≤ n + b - 1 := Nat.div_mul_le_self _ _
    have h2 : (j + 1) * b ≤ (n + b - 1) / b * b := Nat.mul_le_mul_right b (by omega)
    rw [Nat.add_mul] at h2
    omega
  obtain ⟨c, ps, e, hc, h0, h1⟩ := chainUp_range n b ((n + b - 1) / b) 0 hj
  have hc0 : c = 0 := by
    rcases Nat.eq_zero_or_pos ((n + b - 1) / b) with hm | hm
    · rw [h0 hm]
      rcases Nat.div_eq_zero_iff.1 hm with h | h <;> omega
    · rw [h1 hm]; simp
  subst hc0
  refine ⟨ps, ?_, hc⟩
  unfold blocks
  rw [List.range_eq_range', e]
  rfl

theorem recvBlocks_spec {s : Nat} {b : Bytes} {o x : List Payload} {rest : Nat → List Payload} (ps : List Nat) :
    ∀ (c : Nat) (q : Inbox) (buf : Bytes), ChainUp b.length c ps → buf.length = b.length → buf.take c = b.take c →
      Front q s o x (((c :: ps).zip ps).map fun p => .bytes ((b.drop p.1).take (p.2 - p.1))) rest →
      ∃ q', recvBlocks s q buf ((c :: ps).zip ps) = some (some b, q') ∧ Front q' s o x [] rest ∧
        ∀ s' t, s' ≠ s → q' s' t = q s' t := by
  induction ps with
  | nil =>
    intro c q buf hc hl ht hq
    have hc : c = b.length := hc
    refine ⟨q, ?_, by simpa using hq, fun _ _ _ => rfl⟩
    have : buf = b := by
      rw [hc, List.take_length, ← hl, List.take_length] at ht
      exact ht
    simp [recvBlocks, this]
  | cons p t ih =>
    intro c q buf hc hl ht hq
    have hpn := chainUp_le t hc.2
    have hcp := hc.1
    rw [List.zip_cons_cons, List.map_cons] at hq
    obtain ⟨q1, r1, r2, r3⟩ := hq.takeBuffer
    have hblk : ((b.drop c).take (p - c)).length = p - c := by
      simp only [List.length_take, List.length_drop]
      omega
    have hbc : buf.take c ++ (b.drop c).take (p - c) = b.take p := by
      rw [ht]
      have : p = c + (p - c) := by omega
      conv => rhs; rw [this]
      rw [List.take_add]
    obtain ⟨q2, i1, i2, i3⟩ := ih p q1 (buf.take c ++ (b.drop c).take (p - c) ++ buf.drop p) hc.2
      (by
        simp only [List.length_append, List.length_take, List.length_drop]
        omega)
      (by
        rw [hbc, List.take_append_of_le_length (by rw [List.length_take]; omega), List.take_take, Nat.min_self])
      r2
    refine ⟨q2, ?_, i2, fun s' t' hs => by rw [i3 s' t' hs, r3 s' t' hs]⟩
    rw [List.zip_cons_cons]
    simp only [recvBlocks, r1, hblk, if_true]
    exact i1

theorem recvSerialized_spec {q : Inbox} {s block : Nat} {b : Bytes} {rest : Nat → List Payload} (hb : 0 < block)
    (h : Front q s [] [.size b.length] ((blocks b.length block).map fun p => .bytes ((b.drop p.1).take (p.2 - p.1))) rest) :
    ∃ q', recvSerialized block q s = some (.request (.cleanup b), q') ∧ Left q q' s rest := by
  obtain ⟨q1, r1, r2, r3⟩ := h.takeObject
  obtain ⟨ps, e, hc⟩ := blocks_chain (n := b.length) hb
  rw [e] at r2
  obtain ⟨q2, i1, i2, i3⟩ := recvBlocks_spec ps 0 q1 (List.replicate b.length 0) hc (by simp) (by simp) r2
  refine ⟨q2, ?_, i2.done.1, fun s' t hs => by rw [i3 s' t hs, r3 s' t hs]⟩
  unfold recvSerialized
  simp only [r1, e, i1]

theorem recvObject_spec {q : Inbox} {s : Nat} {x : List Nat} {rest : Nat → List Payload} (f : List Nat → Request)
    (h : Front q s [] [.object x] [] rest) :
    ∃ q', recvObject q s f = some (.request (f x), q') ∧ Left q q' s rest := by
  obtain ⟨q1, r1, r2, r3⟩ := h.takeObject
  exact ⟨q1, by simp only [recvObject, r1], r2.done.1, r3⟩

theorem pull_task {q : Inbox} {s : Nat} {d : Data} {i : Info} {rest : Nat → List Payload} (ht : i.type = .taskData)
    (hi : i.sDataLen = d.sData.length ∧ i.rawLens = d.rawBuffers.map List.length ∧ i.bufferCount = d.bufferCount)
    (h : Front q s [] [.info i] ((d.sData :: d.rawBuffers).map .bytes) rest) :
    ∃ q', pull q s = some (some (.task d), q') ∧ Left q q' s rest := by
  obtain ⟨q1, r1, r2, r3⟩ := h.takeObject
  obtain ⟨q2, i1, i2, i3⟩ := recvComplex_spec hi r2
  exact ⟨q2, by simp only [pull, r1, ht, i1, Option.map], i2.done.1, fun s' t hs => by rw [i3 s' t hs, r3 s' t hs]⟩

theorem pull_local {q : Inbox} {s : Nat} {d : Data} {i : Info} {rest : Nat → List Payload} (ht : i.type = .localData)
    (hi : i.sDataLen = d.sData.length ∧ i.rawLens = d.rawBuffers.map List.length ∧ i.bufferCount = d.bufferCount)
    (h : Front q s [] [.info i] ((d.sData :: d.rawBuffers).map .bytes) rest) :
    ∃ q', pull q s = some (some (.localData i.id d), q') ∧ Left q q' s rest := by
  obtain ⟨q1, r1, r2, r3⟩ := h.takeObject
  obtain ⟨q2, i1, i2, i3⟩ := recvComplex_spec hi r2
  exact ⟨q2, by simp only [pull, r1, ht, i1, Option.map], i2.done.1, fun s' t hs => by rw [i3 s' t hs, r3 s' t hs]⟩

theorem pull_shared {q : Inbox} {s : Nat} {i : Info} {rest : Nat → List Payload} (ht : i.type = .sharedData)
    (h : Front q s [] [.info i] [] rest) : ∃ q', pull q s = some (some (.shared i), q') ∧ Left q q' s rest := by
  obtain ⟨q1, r1, r2, r3⟩ := h.takeObject
  exact ⟨q1, by simp only [pull, r1, ht], r2.done.1, r3⟩

theorem pullTask_spec {q : Inbox} {s : Nat} {d : Data} {rest : Nat → List Payload} (f : Data → Request)
    (h : Front q s [] [.info ⟨.taskData, none, d.sData.length, d.rawBuffers.map List.length, d.bufferCount, none⟩]
      ((d.sData :: d.rawBuffers).map .bytes) rest) :
    ∃ q', pullTask q s f = some (.request (f d), q') ∧ Left q q' s rest := by
  obtain ⟨q', r1, r2⟩ := pull_task rfl ⟨rfl, rfl, rfl⟩ h
  exact ⟨q', by simp only [pullTask, r1, Option.map], r2⟩

/-- The requests that are sent to workers (controller/api.py:322, 568, controller/common.py:207, 281, 331, 359,
controller/actor.py:56, 121, controller/garbage_collector.py:63, worker/task_store.py:157) and, only known to the loop, `WAIT` (worker/loop.py:170);
without the last message `SHUTDOWN`. -/
def Request.forWorker : Request → Bool
  | .execute _ | .get _ | .putData .. | .putOwner _ | .putShared .. | .wait _ | .actorCreate _ | .actorExecute _ | .cleanup _
  | .cancel => true
  | _ => false

/-- The requests that are sent to monitors (controller/api.py:484, controller/garbage_collector.py:63, 123,
worker/task_store.py:311, 399, worker/loop.py:216, communication.py:1080, shared_object_store.py:556), without the last message
`SHUTDOWN`. -/
def Request.forMonitor : Request → Bool
  | .taskDone _ | .wait _ | .getTaskCount | .reserve _ | .requestShared _ | .cleanup _ | .readyToShutdown => true
  | _ => false

theorem Left.of {q q1 q2 : Inbox} {s : Nat} {rest : Nat → List Payload} (h1 : ∀ s' t, s' ≠ s → q1 s' t = q s' t)
    (h2 : Left q1 q2 s rest) : Left q q2 s rest := ⟨h2.1, fun s' t hs => by rw [h2.2 s' t hs, h1 s' t hs]⟩

theorem worker_round {q : Inbox} {s block : Nat} {ready : Bool} {r : Request} {rest : Nat → List Payload} (hb : 0 < block)
    (hr : r.forWorker = true) (h : ∀ t, q s t = inboxOf (r.messages s block) s t ++ rest t) :
    ∃ q', workerReads block ready q s = some (.request r, q') ∧ Left q q' s rest := by
  cases r with
  | execute d =>
    obtain ⟨q1, a1, a2, a3⟩ := (front_data h).takeOp
    obtain ⟨q2, b1, b2⟩ := pullTask_spec .execute a2
    exact ⟨q2, by simp only [workerReads, a1]; exact b1, b2.of a3⟩
  | get f =>
    obtain ⟨q1, a1, a2, a3⟩ := (front_simple h).takeOp
    obtain ⟨q2, b1, b2⟩ := recvObject_spec .get a2
    exact ⟨q2, by simp only [workerReads, a1]; exact b1, b2.of a3⟩
  | putData n d =>
    obtain ⟨q1, a1, a2, a3⟩ := (front_data h).takeOp
    obtain ⟨q2, b1, b2⟩ := pull_local rfl ⟨rfl, rfl, rfl⟩ a2
    exact ⟨q2, by simp only [workerReads, a1, b1]; rfl, b2.of a3⟩
  | putOwner f =>
    obtain ⟨q1, a1, a2, a3⟩ := (front_simple h).takeOp
    obtain ⟨q2, b1, b2⟩ := recvObject_spec .putOwner a2
    exact ⟨q2, by simp only [workerReads, a1]; exact b1, b2.of a3⟩
  | putShared n l w c v =>
    obtain ⟨q1, a1, a2, a3⟩ := (front_simple h).takeOp
    obtain ⟨q2, b1, b2⟩ := pull_shared rfl a2
    exact ⟨q2, by simp only [workerReads, a1, b1]; rfl, b2.of a3⟩
  | wait f =>
    obtain ⟨q1, a1, a2, a3⟩ := (front_simple h).takeOp
    obtain ⟨q2, b1, b2⟩ := recvObject_spec .wait a2
    exact ⟨q2, by simp only [workerReads, a1]; exact b1, b2.of a3⟩
  | actorCreate d =>
    obtain ⟨q1, a1, a2, a3⟩ := (front_data h).takeOp
    obtain ⟨q2, b1, b2⟩ := pullTask_spec .actorCreate a2
    exact ⟨q2, by simp only [workerReads, a1]; exact b1, b2.of a3⟩
  | actorExecute d =>
    obtain ⟨q1, a1, a2, a3⟩ := (front_data h).takeOp
    obtain ⟨q2, b1, b2⟩ := pullTask_spec .actorExecute a2
    exact ⟨q2, by simp only [workerReads, a1]; exact b1, b2.of a3⟩
  | cleanup b =>
    obtain ⟨q1, a1, a2, a3⟩ := (front_serialized h).takeOp
    obtain ⟨q2, b1, b2⟩ := recvSerialized_spec hb a2
    exact ⟨q2, by simp only [workerReads, a1]; exact b1, b2.of a3⟩
  | cancel =>
    obtain ⟨q1, a1, a2, a3⟩ := (front_op h).takeOp
    exact ⟨q1, by simp only [workerReads, a1]; rfl, a2.done.of a3⟩
  | _ => simp [Request.forWorker] at hr

theorem monitor_round {q : Inbox} {s block : Nat} {r : Request} {rest : Nat → List Payload} (hb : 0 < block)
    (hr : r.forMonitor = true) (h : ∀ t, q s t = inboxOf (r.messages s block) s t ++ rest t) :
    ∃ q', monitorReads block q s = some (.request r, q') ∧ Left q q' s rest := by
  cases r with
  | taskDone f =>
    obtain ⟨q1, a1, a2, a3⟩ := (front_simple h).takeOp
    obtain ⟨q2, b1, b2⟩ := recvObject_spec .taskDone a2
    exact ⟨q2, by simp only [monitorReads, a1]; exact b1, b2.of a3⟩
  | wait f =>
    obtain ⟨q1, a1, a2, a3⟩ := (front_simple h).takeOp
    obtain ⟨q2, b1, b2⟩ := recvObject_spec .wait a2
    exact ⟨q2, by simp only [monitorReads, a1]; exact b1, b2.of a3⟩
  | getTaskCount =>
    obtain ⟨q1, a1, a2, a3⟩ := (front_op h).takeOp
    exact ⟨q1, by simp only [monitorReads, a1]; rfl, a2.done.of a3⟩
  | reserve f =>
    obtain ⟨q1, a1, a2, a3⟩ := (front_simple h).takeOp
    obtain ⟨q2, b1, b2⟩ := recvObject_spec .reserve a2
    exact ⟨q2, by simp only [monitorReads, a1]; exact b1, b2.of a3⟩
  | requestShared f =>
    obtain ⟨q1, a1, a2, a3⟩ := (front_simple h).takeOp
    obtain ⟨q2, b1, b2⟩ := recvObject_spec .requestShared a2
    exact ⟨q2, by simp only [monitorReads, a1]; exact b1, b2.of a3⟩
  | cleanup b =>
    obtain ⟨q1, a1, a2, a3⟩ := (front_serialized h).takeOp
    obtain ⟨q2, b1, b2⟩ := recvSerialized_spec hb a2
    exact ⟨q2, by simp only [monitorReads, a1]; exact b1, b2.of a3⟩
  | readyToShutdown =>
    obtain ⟨q1, a1, a2, a3⟩ := (front_op h).takeOp
    exact ⟨q1, by simp only [monitorReads, a1]; rfl, a2.done.of a3⟩
  | _ => simp [Request.forMonitor] at hr

/-! ## The loops -/

/-- Queues that hold exactly the calls of every source. -/
def HoldsCalls (block : Nat) (C : Nat → List Call) (q : Inbox) : Prop :=
  ∀ s t, q s t = inboxOf ((C s).flatMap (Call.messages s block)) s t

theorem holdsCalls_of_sent {block : Nat} {C : Nat → List Call} {msgs : List Msg}
    (h : ∀ s, msgs.filter (·.src = s) = (C s).flatMap (Call.messages s block)) : HoldsCalls block C (inboxOf msgs) := by
  intro s t
  rw [← h s]
  unfold inboxOf
  rw [List.filter_filter]
  congr 1
  apply List.filter_congr
  intro m _
  by_cases h1 : m.src = s <;> simp [h1]

/-- The calls left after taking the first one of source `s`. -/
def dropCall (C : Nat → List Call) (s : Nat) : Nat → List Call := fun x => if x = s then (C x).tail else C x

theorem holds_next {block : Nat} {C : Nat → List Call} {q q' : Inbox} {s : Nat} (hq : HoldsCalls block C q)
    (hl : Left q q' s fun t => inboxOf ((C s).tail.flatMap (Call.messages s block)) s t) :
    HoldsCalls block (dropCall C s) q' := by
  intro x t
  by_cases hx : x = s
  · subst hx
    simp [dropCall, hl.1 t]
  · simp [dropCall, hx, hl.2 x t hx, hq x t]

theorem holds_head {block : Nat} {C : Nat → List Call} {q : Inbox} {s : Nat} {r : Request} {l : List Call}
    (hq : HoldsCalls block C q) (hC : C s = .sends r :: l) (t : Nat) :
    q s t = inboxOf (r.messages s block) s t ++ inboxOf ((C s).tail.flatMap (Call.messages s block)) s t := by
  rw [hq s t, hC, List.flatMap_cons, inboxOf_append]
  rfl

theorem workerLoop_spec {block : Nat} (hb : 0 < block) (sched : List Nat) : ∀ (ready : Bool) (C : Nat → List Call) (q : Inbox)
    (R : Nat → List Request), HoldsCalls block C q → (∀ s, (C s).take (sched.count s) = (R s).map .sends) →
    (∀ s, (R s).length = sched.count s) → (∀ s, ∀ r ∈ R s, r.forWorker = true) →
    ∃ got q', workerLoop block ready q sched = some (got, q') ∧ got.map (·.1) = sched ∧
      (∀ s, (got.filter (·.1 = s)).map (·.2) = (R s).map .request) ∧
      HoldsCalls block (fun s => (C s).drop (sched.count s)) q' := by
  induction sched with
  | nil =>
    intro ready C q R hq _ hl _
    refine ⟨[], q, rfl, rfl, ?_, by simpa using hq⟩
    intro s
    have := hl s
    simp only [List.count_nil, List.length_eq_zero_iff] at this
    simp [this]
  | cons s rest ih =>
    intro ready C q R hq hC hl hR
    have h1 := hC s
    have h2 := hl s
    rw [List.count_cons_self] at h1 h2
    cases hRs : R s with
    | nil => rw [hRs] at h2; simp at h2
    | cons r rs =>
      cases hCs : C s with
      | nil => rw [hCs, hRs] at h1; simp at h1
      | cons c cs =>
        rw [hCs, hRs, List.take_succ_cons, List.map_cons, List.cons.injEq] at h1
        obtain ⟨rfl, h1⟩ := h1
        obtain ⟨q1, a1, a2⟩ := worker_round (ready := ready) hb (hR s r (by simp [hRs])) (holds_head hq hCs)
        have hq1 := holds_next hq a2
        obtain ⟨got, q2, b1, b2, b3, b4⟩ := ih (ready || decide (r = .cancel)) (dropCall C s) q1
          (fun x => if x = s then (R x).tail else R x) hq1
          (by
            intro x
            by_cases hx : x = s
            · subst hx; simp [dropCall, hCs, hRs, h1]
            · have := hC x
              rw [List.count_cons_of_ne (fun e => hx e.symm)] at this
              simp [dropCall, hx, this])
          (by
            intro x
            by_cases hx : x = s
            · subst hx
              rw [hRs] at h2
              simp only [List.length_cons, Nat.add_right_cancel_iff] at h2
              simp [hRs, h2]
            · have := hl x
              rw [List.count_cons_of_ne (fun e => hx e.symm)] at this
              simp [hx, this])
          (by
            intro x y hy
            by_cases hx : x = s
            · subst hx
              simp only [if_true] at hy
              exact hR x y (List.mem_of_mem_tail hy)
            · simp only [if_neg hx] at hy
              exact hR x y hy)
        refine ⟨(s, .request r) :: got, q2, ?_, by simp [b2], ?_, ?_⟩
        · simp only [workerLoop, a1, b1, Option.map]
        · intro x
          have := b3 x
          by_cases hx : x = s
          · subst hx
            rw [List.filter_cons_of_pos (by simp), List.map_cons, this]
            simp [hRs]
          · rw [List.filter_cons_of_neg (by simpa using fun e => hx e.symm), this]
            simp [hx]
        · intro x t
          rw [b4 x t]
          by_cases hx : x = s
          · subst hx
            simp [dropCall, hCs]
          · simp [dropCall, hx, List.count_cons_of_ne (fun e => hx e.symm)]

theorem monitorLoop_spec {block : Nat} (hb : 0 < block) (sched : List Nat) : ∀ (C : Nat → List Call) (q : Inbox)
    (R : Nat → List Request), HoldsCalls block C q → (∀ s, (C s).take (sched.count s) = (R s).map .sends) →
    (∀ s, (R s).length = sched.count s) → (∀ s, ∀ r ∈ R s, r.forMonitor = true) →
    ∃ got q', monitorLoop block q sched = some (got, q') ∧ got.map (·.1) = sched ∧
      (∀ s, (got.filter (·.1 = s)).map (·.2) = (R s).map .request) ∧
      HoldsCalls block (fun s => (C s).drop (sched.count s)) q' := by
  induction sched with
  | nil =>
    intro C q R hq _ hl _
    refine ⟨[], q, rfl, rfl, ?_, by simpa using hq⟩
    intro s
    have := hl s
    simp only [List.count_nil, List.length_eq_zero_iff] at this
    simp [this]
  | cons s rest ih =>
    intro C q R hq hC hl hR
    have h1 := hC s
    have h2 := hl s
    rw [List.count_cons_self] at h1 h2
    cases hRs : R s with
    | nil => rw [hRs] at h2; simp at h2
    | cons r rs =>
      cases hCs : C s with
      | nil => rw [hCs, hRs] at h1; simp at h1
      | cons c cs =>
        rw [hCs, hRs, List.take_succ_cons, List.map_cons, List.cons.injEq] at h1
        obtain ⟨rfl, h1⟩ := h1
        obtain ⟨q1, a1, a2⟩ := monitor_round hb (hR s r (by simp [hRs])) (holds_head hq hCs)
        have hq1 := holds_next hq a2
        obtain ⟨got, q2, b1, b2, b3, b4⟩ := ih (dropCall C s) q1
          (fun x => if x = s then (R x).tail else R x) hq1
          (by
            intro x
            by_cases hx : x = s
            · subst hx; simp [dropCall, hCs, hRs, h1]
            · have := hC x
              rw [List.count_cons_of_ne (fun e => hx e.symm)] at this
              simp [dropCall, hx, this])
          (by
            intro x
            by_cases hx : x = s
            · subst hx
              rw [hRs] at h2
              simp only [List.length_cons, Nat.add_right_cancel_iff] at h2
              simp [hRs, h2]
            · have := hl x
              rw [List.count_cons_of_ne (fun e => hx e.symm)] at this
              simp [hx, this])
          (by
            intro x y hy
            by_cases hx : x = s
            · subst hx
              simp only [if_true] at hy
              exact hR x y (List.mem_of_mem_tail hy)
            · simp only [if_neg hx] at hy
              exact hR x y hy)
        refine ⟨(s, .request r) :: got, q2, ?_, by simp [b2], ?_, ?_⟩
        · simp only [monitorLoop, a1, b1, Option.map]
        · intro x
          have := b3 x
          by_cases hx : x = s
          · subst hx
            rw [List.filter_cons_of_pos (by simp), List.map_cons, this]
            simp [hRs]
          · rw [List.filter_cons_of_neg (by simpa using fun e => hx e.symm), this]
            simp [hx]
        · intro x t
          rw [b4 x t]
          by_cases hx : x = s
          · subst hx
            simp [dropCall, hCs]
          · simp [dropCall, hx, List.count_cons_of_ne (fun e => hx e.symm)]

end Verif.Dispatch
