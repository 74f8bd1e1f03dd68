import Verif.Model.Interrupt
import Verif.Lemmas.Dispatch

/-! Requests that were not sent completely. -/
namespace Verif.Interrupt
open Verif.Dispatch

/-! ## Reading from one source leaves the others -/

/-- `q'` has the queues of `q` for all sources but `s`. -/
def Keeps (q q' : Inbox) (s : Nat) : Prop := ∀ s' t, s' ≠ s → q' s' t = q s' t

theorem Keeps.refl (q : Inbox) (s : Nat) : Keeps q q s := fun _ _ _ => rfl
theorem Keeps.trans {q q1 q2 : Inbox} {s : Nat} (h : Keeps q q1 s) (h' : Keeps q1 q2 s) : Keeps q q2 s :=
  fun s' t hs => (h' s' t hs).trans (h s' t hs)

theorem recv_keeps {q q' : Inbox} {s t : Nat} {p : Payload} (h : recv q s t = some (p, q')) : Keeps q q' s := by
  simp only [recv] at h
  split at h
  · cases h
  · cases h; intro s' t' hs; simp [hs]

theorem recvObject_keeps {q q' : Inbox} {s : Nat} {f : List Nat → Request} {g : Got} (h : recvObject q s f = some (g, q')) :
    Keeps q q' s := by
  simp only [recvObject] at h
  split at h
  · cases h
  · rename_i hr; cases h; exact recv_keeps hr
  · rename_i hr; cases h; exact recv_keeps hr

theorem recvBlocks_keeps {s : Nat} : ∀ {l : List (Nat × Nat)} {q q' : Inbox} {buf : Bytes} {r : Option Bytes},
    recvBlocks s q buf l = some (r, q') → Keeps q q' s
  | [], q, q', buf, r, h => by cases h; exact Keeps.refl _ _
  | (i, j) :: l, q, q', buf, r, h => by
    simp only [recvBlocks] at h
    split at h
    · cases h
    · rename_i hr
      split at h
      · exact (recv_keeps hr).trans (recvBlocks_keeps h)
      · cases h; exact recv_keeps hr
    · rename_i hr; cases h; exact recv_keeps hr

theorem recvSerialized_keeps {q q' : Inbox} {s block : Nat} {g : Got} (h : recvSerialized block q s = some (g, q')) :
    Keeps q q' s := by
  simp only [recvSerialized] at h
  split at h
  · cases h
  · rename_i hr
    split at h
    · cases h
    · rename_i hb; cases h; exact (recv_keeps hr).trans (recvBlocks_keeps hb)
    · rename_i hb; cases h; exact (recv_keeps hr).trans (recvBlocks_keeps hb)
  · rename_i hr; cases h; exact recv_keeps hr

theorem recvAll_keeps {s : Nat} : ∀ {l : List Nat} {q q' : Inbox} {r : Option (List Bytes)},
    recvAll s q l = some (r, q') → Keeps q q' s
  | [], q, q', r, h => by cases h; exact Keeps.refl _ _
  | n :: l, q, q', r, h => by
    simp only [recvAll] at h
    split at h
    · cases h
    · rename_i hr
      split at h
      · split at h
        · cases h
        · rename_i ha; cases h; exact (recv_keeps hr).trans (recvAll_keeps ha)
        · rename_i ha; cases h; exact (recv_keeps hr).trans (recvAll_keeps ha)
      · cases h; exact recv_keeps hr
    · rename_i hr; cases h; exact recv_keeps hr

theorem recvComplex_keeps {q q' : Inbox} {s : Nat} {i : Info} {r : Option Data} (h : recvComplex q s i = some (r, q')) :
    Keeps q q' s := by
  simp only [recvComplex] at h
  split at h
  · cases h
  · rename_i ha; cases h; exact recvAll_keeps ha
  · rename_i ha; cases h; exact recvAll_keeps ha

theorem pull_keeps {q q' : Inbox} {s : Nat} {r : Option Pulled} (h : pull q s = some (r, q')) : Keeps q q' s := by
  simp only [pull] at h
  split at h
  · cases h
  · rename_i hr
    split at h
    · cases h; exact recv_keeps hr
    · obtain ⟨x, hx, e⟩ := Option.map_eq_some_iff.1 h
      cases e; exact (recv_keeps hr).trans (recvComplex_keeps hx)
    · obtain ⟨x, hx, e⟩ := Option.map_eq_some_iff.1 h
      cases e; exact (recv_keeps hr).trans (recvComplex_keeps hx)
  · rename_i hr; cases h; exact recv_keeps hr

theorem workerReads_keeps {q q' : Inbox} {s block : Nat} {ready : Bool} {g : Got} (h : workerReads block ready q s = some (g, q')) :
    Keeps q q' s := by
  simp only [workerReads, pullTask] at h
  split at h
  · cases h
  · rename_i hr
    refine (recv_keeps hr).trans ?_
    repeat' split at h
    all_goals first
      | exact recvObject_keeps h
      | exact recvSerialized_keeps h
      | (obtain ⟨x, hx, e⟩ := Option.map_eq_some_iff.1 h
         have e2 := (Prod.mk.inj e).2
         subst e2
         exact pull_keeps (r := x.1) hx)
      | (cases h; exact Keeps.refl _ _)
  · rename_i hr; cases h; exact recv_keeps hr

theorem monitorReads_keeps {q q' : Inbox} {s block : Nat} {g : Got} (h : monitorReads block q s = some (g, q')) :
    Keeps q q' s := by
  simp only [monitorReads] at h
  split at h
  · cases h
  · rename_i hr
    refine (recv_keeps hr).trans ?_
    repeat' split at h
    all_goals first
      | exact recvObject_keeps h
      | exact recvSerialized_keeps h
      | (cases h; exact Keeps.refl _ _)
  · rename_i hr; cases h; exact recv_keeps hr

/-! ## Waiting for the missing parts -/

theorem recvAll_short {s : Nat} : ∀ (bs : List Bytes) (j : Nat) {q : Inbox}, j < bs.length →
    q s tagBuffer = (bs.take j).map .bytes → recvAll s q (bs.map List.length) = none
  | [], _, _, h, _ => by simp at h
  | b :: bs, 0, q, _, hq => by
    have : q s tagBuffer = [] := by simpa using hq
    simp [recvAll, recv, this]
  | b :: bs, j + 1, q, h, hq => by
    rw [List.take_succ_cons, List.map_cons] at hq
    have := recvAll_short bs j (q := upd q s tagBuffer ((bs.take j).map .bytes)) (by simpa using h) (upd_same ..)
    simp only [List.map_cons, recvAll, recv_cons hq, if_true, this]

theorem recvBlocks_short {s : Nat} {b : Bytes} : ∀ (l : List (Nat × Nat)) (j : Nat) {q : Inbox} {buf : Bytes}, j < l.length →
    (∀ p ∈ l, ((b.drop p.1).take (p.2 - p.1)).length = p.2 - p.1) →
    q s tagBuffer = (l.take j).map (fun p => .bytes ((b.drop p.1).take (p.2 - p.1))) → recvBlocks s q buf l = none
  | [], _, _, _, h, _, _ => by simp at h
  | p :: l, 0, q, _, _, _, hq => by
    have : q s tagBuffer = [] := by simpa using hq
    obtain ⟨i, j⟩ := p
    simp [recvBlocks, recv, this]
  | p :: l, j + 1, q, buf, h, hl, hq => by
    rw [List.take_succ_cons, List.map_cons] at hq
    obtain ⟨i, k⟩ := p
    have hlen := hl (i, k) (by simp)
    simp only [recvBlocks, recv_cons hq]
    rw [if_pos hlen]
    exact recvBlocks_short l j (by simpa using h) (fun p hp => hl p (by simp [hp])) (upd_same ..)

theorem chain_blocks {b : Bytes} : ∀ (ps : List Nat) (c : Nat), ChainUp b.length c ps →
    ∀ p ∈ (c :: ps).zip ps, ((b.drop p.1).take (p.2 - p.1)).length = p.2 - p.1
  | [], _, _, p, hp => by simp at hp
  | x :: ps, c, h, p, hp => by
    rw [List.zip_cons_cons, List.mem_cons] at hp
    rcases hp with rfl | hp
    · have := chainUp_le ps h.2
      have := h.1
      simp only [List.length_take, List.length_drop]
      omega
    · exact chain_blocks ps x h.2 p hp

/-- The queues of a source from which only operations are missing in the end. -/
theorem inbox_ops (ops : List Op) (s t : Nat) (ht : t ≠ tagOperation) : inboxOf (ops.flatMap (sendOperation s)) s t = [] := by
  induction ops with
  | nil => rfl
  | cons o os ih =>
    rw [List.flatMap_cons, inboxOf_append, ih]
    simpa [sendOperation, inboxOf_cons, inboxOf_nil] using fun e : tagOperation = t => ht e.symm

/-- The queues of a source whose last request is `m :: ms`, cut after `k + 1` messages. -/
theorem inbox_cut {q : Inbox} {s k : Nat} {c : Nat} {ms : List Msg} {ops : List Op}
    (h : ∀ t, q s t = inboxOf ((⟨s, tagOperation, .op c⟩ :: ms).take (k + 1) ++ ops.flatMap (sendOperation s)) s t) :
    (∃ l, q s tagOperation = .op c :: l) ∧ q s tagObject = inboxOf (ms.take k) s tagObject ∧
      q s tagBuffer = inboxOf (ms.take k) s tagBuffer := by
  refine ⟨⟨inboxOf (ms.take k ++ ops.flatMap (sendOperation s)) s tagOperation, ?_⟩, ?_, ?_⟩
  · rw [h, List.take_succ_cons, List.cons_append, inboxOf_cons, if_pos ⟨rfl, rfl⟩]
  · rw [h, List.take_succ_cons, List.cons_append, inboxOf_cons, if_neg (by simp [tagOperation, tagObject]), inboxOf_append,
      inbox_ops _ _ _ (by decide), List.append_nil]
  · rw [h, List.take_succ_cons, List.cons_append, inboxOf_cons, if_neg (by simp [tagOperation, tagBuffer]), inboxOf_append,
      inbox_ops _ _ _ (by decide), List.append_nil]

theorem simple_short {q : Inbox} {s k : Nat} {p : Payload} (hk : k < (sendObject s p).length)
    (h : q s tagObject = inboxOf ((sendObject s p).take k) s tagObject) (l : List Payload) :
    upd q s tagOperation l s tagObject = [] := by
  have : k = 0 := by simp [sendObject] at hk; omega
  subst this
  rw [upd_tag (by decide), h]; rfl

theorem object_none {q : Inbox} {s : Nat} {f : List Nat → Request} (h : q s tagObject = []) : recvObject q s f = none := by
  simp [recvObject, recv, h]

theorem pull_none {q : Inbox} {s : Nat} (h : q s tagObject = []) : pull q s = none := by
  simp [pull, recv, h]

theorem serialized_none {q : Inbox} {s block : Nat} (h : q s tagObject = []) : recvSerialized block q s = none := by
  simp [recvSerialized, recv, h]

theorem data_short {q : Inbox} {s k : Nat} {i : Info} {d : Data} (hk : k < (sendData s i d).length)
    (hi : i.sDataLen = d.sData.length ∧ i.rawLens = d.rawBuffers.map List.length) (ht : i.type ≠ .sharedData)
    (h1 : q s tagObject = inboxOf ((sendData s i d).take k) s tagObject)
    (h2 : q s tagBuffer = inboxOf ((sendData s i d).take k) s tagBuffer) : pull q s = none := by
  cases k with
  | zero => exact pull_none (by rw [h1]; rfl)
  | succ k =>
    have e : sendData s i d = ⟨s, tagObject, .info i⟩ :: (d.sData :: d.rawBuffers).map fun b => ⟨s, tagBuffer, .bytes b⟩ := rfl
    rw [e, List.take_succ_cons, inboxOf_cons, if_pos ⟨rfl, rfl⟩, ← List.map_take, inboxOf_buffers (fun b => b),
      if_neg (by decide)] at h1
    rw [e, List.take_succ_cons, inboxOf_cons, if_neg (by simp [tagObject, tagBuffer]), ← List.map_take,
      inboxOf_buffers (fun b => b), if_pos rfl] at h2
    have hlen : k < (d.sData :: d.rawBuffers).length := by rw [e] at hk; simpa using hk
    have hshort := recvAll_short (s := s) (d.sData :: d.rawBuffers) k (q := upd q s tagObject []) hlen
      (by rw [upd_tag (by decide), h2])
    have hc : recvComplex (upd q s tagObject []) s i = none := by
      unfold recvComplex
      rw [hi.1, hi.2, ← List.map_cons, hshort]
    simp only [pull, recv_cons h1]
    cases hty : i.type with
    | sharedData => exact absurd hty ht
    | localData => simp [hc]
    | taskData => simp [hc]

theorem serialized_short {q : Inbox} {s block k : Nat} {b : Bytes} (hb : 0 < block) (hk : k < (sendBuffer s block b).length)
    (h1 : q s tagObject = inboxOf ((sendBuffer s block b).take k) s tagObject)
    (h2 : q s tagBuffer = inboxOf ((sendBuffer s block b).take k) s tagBuffer) : recvSerialized block q s = none := by
  cases k with
  | zero => exact serialized_none (by rw [h1]; rfl)
  | succ k =>
    have e : sendBuffer s block b = ⟨s, tagObject, .size b.length⟩ :: (blocks b.length block).map fun p =>
        ⟨s, tagBuffer, .bytes ((b.drop p.1).take (p.2 - p.1))⟩ := rfl
    rw [e, List.take_succ_cons, inboxOf_cons, if_pos ⟨rfl, rfl⟩, ← List.map_take,
      inboxOf_buffers (fun p : Nat × Nat => (b.drop p.1).take (p.2 - p.1)), if_neg (by decide)] at h1
    rw [e, List.take_succ_cons, inboxOf_cons, if_neg (by simp [tagObject, tagBuffer]), ← List.map_take,
      inboxOf_buffers (fun p : Nat × Nat => (b.drop p.1).take (p.2 - p.1)), if_pos rfl] at h2
    have hlen : k < (blocks b.length block).length := by rw [e] at hk; simpa using hk
    obtain ⟨ps, hps, hch⟩ := blocks_chain (n := b.length) hb
    have hshort := recvBlocks_short (s := s) (b := b) (blocks b.length block) k (q := upd q s tagObject [])
      (buf := List.replicate b.length 0) hlen (by rw [hps]; exact chain_blocks ps 0 hch) (by rw [upd_tag (by decide), h2])
    simp only [recvSerialized, recv_cons h1, hshort]

theorem worker_waits {q : Inbox} {s block k : Nat} {ready : Bool} {r : Request} {ops : List Op} (hb : 0 < block)
    (hr : r.forWorker = true) (h0 : 0 < k) (hk : k < (r.messages s block).length)
    (h : ∀ t, q s t = inboxOf ((r.messages s block).take k ++ ops.flatMap (sendOperation s)) s t) :
    workerReads block ready q s = none := by
  obtain ⟨k, rfl⟩ : ∃ j, k = j + 1 := ⟨k - 1, by omega⟩
  cases r with
  | execute d =>
    obtain ⟨⟨l, h1⟩, h2, h3⟩ := inbox_cut h
    have := data_short (q := upd q s tagOperation l) (k := k) (d := d)
      (i := ⟨.taskData, none, d.sData.length, d.rawBuffers.map List.length, d.bufferCount, none⟩)
      (Nat.lt_of_succ_lt_succ hk) ⟨rfl, rfl⟩ (by simp) ((upd_tag (by decide)).trans h2) ((upd_tag (by decide)).trans h3)
    simp [workerReads, recv_cons h1, pullTask, this]
  | get f =>
    obtain ⟨⟨l, h1⟩, h2, h3⟩ := inbox_cut h
    have := simple_short (Nat.lt_of_succ_lt_succ hk) h2 l
    simp [workerReads, recv_cons h1, Op.code, object_none this]
  | putData n d =>
    obtain ⟨⟨l, h1⟩, h2, h3⟩ := inbox_cut h
    have := data_short (q := upd q s tagOperation l) (k := k) (d := d)
      (i := ⟨.localData, some n, d.sData.length, d.rawBuffers.map List.length, d.bufferCount, none⟩)
      (Nat.lt_of_succ_lt_succ hk) ⟨rfl, rfl⟩ (by simp) ((upd_tag (by decide)).trans h2) ((upd_tag (by decide)).trans h3)
    simp [workerReads, recv_cons h1, Op.code, this]
  | putOwner f =>
    obtain ⟨⟨l, h1⟩, h2, h3⟩ := inbox_cut h
    have := simple_short (Nat.lt_of_succ_lt_succ hk) h2 l
    simp [workerReads, recv_cons h1, Op.code, object_none this]
  | putShared n l' w c v =>
    obtain ⟨⟨l, h1⟩, h2, h3⟩ := inbox_cut h
    have := simple_short (Nat.lt_of_succ_lt_succ hk) h2 l
    simp [workerReads, recv_cons h1, Op.code, pull_none this]
  | wait f =>
    obtain ⟨⟨l, h1⟩, h2, h3⟩ := inbox_cut h
    have := simple_short (Nat.lt_of_succ_lt_succ hk) h2 l
    simp [workerReads, recv_cons h1, Op.code, object_none this]
  | actorCreate d =>
    obtain ⟨⟨l, h1⟩, h2, h3⟩ := inbox_cut h
    have := data_short (q := upd q s tagOperation l) (k := k) (d := d)
      (i := ⟨.taskData, none, d.sData.length, d.rawBuffers.map List.length, d.bufferCount, none⟩)
      (Nat.lt_of_succ_lt_succ hk) ⟨rfl, rfl⟩ (by simp) ((upd_tag (by decide)).trans h2) ((upd_tag (by decide)).trans h3)
    simp [workerReads, recv_cons h1, Op.code, pullTask, this]
  | actorExecute d =>
    obtain ⟨⟨l, h1⟩, h2, h3⟩ := inbox_cut h
    have := data_short (q := upd q s tagOperation l) (k := k) (d := d)
      (i := ⟨.taskData, none, d.sData.length, d.rawBuffers.map List.length, d.bufferCount, none⟩)
      (Nat.lt_of_succ_lt_succ hk) ⟨rfl, rfl⟩ (by simp) ((upd_tag (by decide)).trans h2) ((upd_tag (by decide)).trans h3)
    simp [workerReads, recv_cons h1, Op.code, pullTask, this]
  | cleanup b =>
    obtain ⟨⟨l, h1⟩, h2, h3⟩ := inbox_cut h
    have := serialized_short (q := upd q s tagOperation l) hb (Nat.lt_of_succ_lt_succ hk) ((upd_tag (by decide)).trans h2)
      ((upd_tag (by decide)).trans h3)
    simp [workerReads, recv_cons h1, Op.code, this]
  | cancel => simp [Request.messages, sendOperation] at hk
  | _ => simp [Request.forWorker] at hr

theorem monitor_waits {q : Inbox} {s block k : Nat} {r : Request} {ops : List Op} (hb : 0 < block)
    (hr : r.forMonitor = true) (h0 : 0 < k) (hk : k < (r.messages s block).length)
    (h : ∀ t, q s t = inboxOf ((r.messages s block).take k ++ ops.flatMap (sendOperation s)) s t) :
    monitorReads block q s = none := by
  obtain ⟨k, rfl⟩ : ∃ j, k = j + 1 := ⟨k - 1, by omega⟩
  cases r with
  | taskDone f =>
    obtain ⟨⟨l, h1⟩, h2, h3⟩ := inbox_cut h
    have := simple_short (Nat.lt_of_succ_lt_succ hk) h2 l
    simp [monitorReads, recv_cons h1, Op.code, object_none this]
  | wait f =>
    obtain ⟨⟨l, h1⟩, h2, h3⟩ := inbox_cut h
    have := simple_short (Nat.lt_of_succ_lt_succ hk) h2 l
    simp [monitorReads, recv_cons h1, Op.code, object_none this]
  | reserve f =>
    obtain ⟨⟨l, h1⟩, h2, h3⟩ := inbox_cut h
    have := simple_short (Nat.lt_of_succ_lt_succ hk) h2 l
    simp [monitorReads, recv_cons h1, Op.code, object_none this]
  | requestShared f =>
    obtain ⟨⟨l, h1⟩, h2, h3⟩ := inbox_cut h
    have := simple_short (Nat.lt_of_succ_lt_succ hk) h2 l
    simp [monitorReads, recv_cons h1, Op.code, object_none this]
  | cleanup b =>
    obtain ⟨⟨l, h1⟩, h2, h3⟩ := inbox_cut h
    have := serialized_short (q := upd q s tagOperation l) hb (Nat.lt_of_succ_lt_succ hk) ((upd_tag (by decide)).trans h2)
      ((upd_tag (by decide)).trans h3)
    simp [monitorReads, recv_cons h1, Op.code, this]
  | getTaskCount => simp [Request.messages, sendOperation] at hk
  | readyToShutdown => simp [Request.messages, sendOperation] at hk
  | _ => simp [Request.forMonitor] at hr

/-! ## The loops -/

theorem round_rest {s block : Nat} {r : Request} {Rs : List Request} {cut : List Msg} {q : Inbox}
    (hq : ∀ t, q s t = inboxOf ((r :: Rs).flatMap (Request.messages s block) ++ cut) s t) (t : Nat) :
    q s t = inboxOf (r.messages s block) s t ++ inboxOf (Rs.flatMap (Request.messages s block) ++ cut) s t := by
  rw [hq, List.flatMap_cons, List.append_assoc, inboxOf_append]

theorem workerLoop_cut {s block k : Nat} {c : Request} {ops : List Op} (hb : 0 < block) (hc : c.forWorker = true) (h0 : 0 < k)
    (hk : k < (c.messages s block).length) : ∀ (sched : List Nat) {ready : Bool} {Rs : List Request} {q q' : Inbox}
    {got : List (Nat × Got)}, (∀ r ∈ Rs, r.forWorker = true) →
    (∀ t, q s t = inboxOf (Rs.flatMap (Request.messages s block) ++ ((c.messages s block).take k ++ ops.flatMap (sendOperation s))) s t) →
    workerLoop block ready q sched = some (got, q') →
    ∃ n, (got.filter (·.1 = s)).map (·.2) = (Rs.take n).map .request
  | [], ready, Rs, q, q', got, _, _, h => by
    simp only [workerLoop, Option.some.injEq, Prod.mk.injEq] at h
    exact ⟨0, by simp [← h.1]⟩
  | s' :: rest, ready, Rs, q, q', got, hR, hq, h => by
    simp only [workerLoop] at h
    by_cases hs : s' = s
    · subst hs
      cases Rs with
      | nil =>
        have hq' := hq
        simp only [List.flatMap_nil, List.nil_append] at hq'
        rw [worker_waits hb hc h0 hk hq'] at h
        cases h
      | cons r Rs =>
        obtain ⟨q1, hr, hl⟩ := worker_round (ready := ready) hb (hR r (by simp)) (round_rest hq)
        rw [hr] at h
        simp only [Option.map_eq_some_iff] at h
        obtain ⟨x, hx, e⟩ := h
        obtain ⟨n, hn⟩ := workerLoop_cut hb hc h0 hk rest (fun r hr => hR r (by simp [hr])) hl.1 hx
        refine ⟨n + 1, ?_⟩
        cases e
        simp [hn]
    · split at h
      · cases h
      · rename_i r q1 hr
        simp only [Option.map_eq_some_iff] at h
        obtain ⟨x, hx, e⟩ := h
        have hkeep := workerReads_keeps hr
        obtain ⟨n, hn⟩ := workerLoop_cut hb hc h0 hk rest hR (fun t => by rw [hkeep s t (Ne.symm hs), hq]) hx
        refine ⟨n, ?_⟩
        cases e
        simp [hs, hn]
      · cases h
        exact ⟨0, by simp [hs]⟩

theorem monitorLoop_cut {s block k : Nat} {c : Request} {ops : List Op} (hb : 0 < block) (hc : c.forMonitor = true) (h0 : 0 < k)
    (hk : k < (c.messages s block).length) : ∀ (sched : List Nat) {Rs : List Request} {q q' : Inbox}
    {got : List (Nat × Got)}, (∀ r ∈ Rs, r.forMonitor = true) →
    (∀ t, q s t = inboxOf (Rs.flatMap (Request.messages s block) ++ ((c.messages s block).take k ++ ops.flatMap (sendOperation s))) s t) →
    monitorLoop block q sched = some (got, q') →
    ∃ n, (got.filter (·.1 = s)).map (·.2) = (Rs.take n).map .request
  | [], Rs, q, q', got, _, _, h => by
    simp only [monitorLoop, Option.some.injEq, Prod.mk.injEq] at h
    exact ⟨0, by simp [← h.1]⟩
  | s' :: rest, Rs, q, q', got, hR, hq, h => by
    simp only [monitorLoop] at h
    by_cases hs : s' = s
    · subst hs
      cases Rs with
      | nil =>
        have hq' := hq
        simp only [List.flatMap_nil, List.nil_append] at hq'
        rw [monitor_waits hb hc h0 hk hq'] at h
        cases h
      | cons r Rs =>
        obtain ⟨q1, hr, hl⟩ := monitor_round hb (hR r (by simp)) (round_rest hq)
        rw [hr] at h
        simp only [Option.map_eq_some_iff] at h
        obtain ⟨x, hx, e⟩ := h
        obtain ⟨n, hn⟩ := monitorLoop_cut hb hc h0 hk rest (fun r hr => hR r (by simp [hr])) hl.1 hx
        refine ⟨n + 1, ?_⟩
        cases e
        simp [hn]
    · split at h
      · cases h
      · rename_i r q1 hr
        simp only [Option.map_eq_some_iff] at h
        obtain ⟨x, hx, e⟩ := h
        have hkeep := monitorReads_keeps hr
        obtain ⟨n, hn⟩ := monitorLoop_cut hb hc h0 hk rest hR (fun t => by rw [hkeep s t (Ne.symm hs), hq]) hx
        refine ⟨n, ?_⟩
        cases e
        simp [hs, hn]
      · cases h
        exact ⟨0, by simp [hs]⟩

/-- Calls of which nothing or everything was sent. -/
theorem messages_whole (s block : Nat) (as : List Attempt)
    (h : ∀ a ∈ as, a.sent = 0 ∨ (a.request.messages s block).length ≤ a.sent) :
    as.flatMap (Attempt.messages s block) =
      ((as.filter fun a => decide (0 < a.sent)).map (·.request)).flatMap (Request.messages s block) := by
  induction as with
  | nil => rfl
  | cons a as ih =>
    rw [List.flatMap_cons, ih fun x hx => h x (by simp [hx])]
    rcases h a (by simp) with h0 | h1
    · simp [Attempt.messages, h0]
    · by_cases h0 : a.sent = 0
      · simp [Attempt.messages, h0]
      · rw [List.filter_cons_of_pos (by simpa using Nat.pos_of_ne_zero h0), List.map_cons, List.flatMap_cons]
        simp [Attempt.messages, List.take_of_length_le h1]

end Verif.Interrupt
