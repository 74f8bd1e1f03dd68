import Verif.Lemmas.Comm

/-! Properties C14 and C15: buffers and composite packages between processes. -/
namespace Verif.Props
open Verif.Comm

/-- C14, receiver knows the length: whatever the block size, the length and the interleaving with messages of other
sources, the receiver gets exactly the bytes and consumes exactly the messages of this buffer. -/
theorem C14_known_length_roundtrip (msgs rest : List Msg) (s block : Nat) (b buf : Bytes) (hb : 0 < block)
    (hsent : msgs.filter (·.src = s) = sendBlocks s block b ++ rest) (hlen : buf.length = b.length) :
    ∃ q', recvBufferInto s block (inboxOf msgs) buf = some (b, q') ∧
      q' s .buffer = inboxOf rest s .buffer ∧
      ∀ s' t', ¬ (s' = s ∧ t' = .buffer) → q' s' t' = inboxOf msgs s' t' := by
  have hq := inbox_of_filter hsent .buffer
  rw [sendBlocks_inbox] at hq
  exact recvBufferInto_spec hb hlen hq

/-- C14, size sent first. -/
theorem C14_sized_roundtrip (msgs rest : List Msg) (s block : Nat) (b : Bytes) (hb : 0 < block)
    (hsent : msgs.filter (·.src = s) = isendBuffer s block b ++ rest) :
    ∃ q', recvBuffer s block (inboxOf msgs) = some (b, q') ∧
      q' s .buffer = inboxOf rest s .buffer ∧ q' s .object = inboxOf rest s .object ∧
      ∀ s' t', s' ≠ s → q' s' t' = inboxOf msgs s' t' := by
  have hobj : inboxOf msgs s .object = .size b.length :: inboxOf rest s .object := by
    rw [inbox_of_filter hsent .object]
    unfold isendBuffer
    rw [List.cons_append, List.filter_cons_of_pos (by simp), List.map_cons, List.filter_append]
    have : (sendBlocks s block b).filter (fun m => m.src = s ∧ m.tag = .object) = [] := by
      rw [List.filter_eq_nil_iff]
      intro m hm
      unfold sendBlocks at hm
      obtain ⟨p, -, rfl⟩ := List.mem_map.1 hm
      simp
    rw [this]
    rfl
  obtain ⟨q1, a1, a2, a3⟩ := recv_cons hobj
  have hbuf : q1 s .buffer = (pairs (partitions b.length block)).map (fun p => Payload.bytes (blk b p)) ++
      inboxOf rest s .buffer := by
    rw [a3 s .buffer (by simp), inbox_of_filter hsent .buffer]
    unfold isendBuffer
    rw [List.cons_append, List.filter_cons_of_neg (by simp), sendBlocks_inbox]
    rfl
  obtain ⟨q2, b1, b2, b3⟩ := recvBufferInto_spec (buf := List.replicate b.length 0) hb (by simp) hbuf
  refine ⟨q2, by simp [recvBuffer, a1, b1], b2, ?_, ?_⟩
  · rw [b3 s .object (by simp), a2]
  · intro s' t' hn
    rw [b3 s' t' (by simp [hn]), a3 s' t' (by simp [hn])]

/-- Seven bytes in blocks of three, interleaved with another source; an empty buffer is no block at all; a multiple of
the block size has no empty last block. -/
example :
    ([⟨9, .buffer, .bytes [0]⟩] ++ sendBlocks 2 3 [1, 2, 3, 4, 5, 6, 7] : List Msg).filter (·.src = 2) =
      sendBlocks 2 3 [1, 2, 3, 4, 5, 6, 7] ++ [] ∧
    (sendBlocks 2 3 [1, 2, 3, 4, 5, 6, 7]).map (·.payload) = [.bytes [1, 2, 3], .bytes [4, 5, 6], .bytes [7]] ∧
    sendBlocks 2 3 [] = [] ∧ (sendBlocks 2 3 [1, 2, 3]).map (·.payload) = [.bytes [1, 2, 3]] := by
  decide

/-- C15, full statement: receives of packages, each from a chosen source and of a chosen kind (blocking reply or ordinary
message) of which enough have been sent, give the packages of that source and kind in the order of sending. -/
def C15_full : Prop :=
  ∀ (P : Nat → List Package) (msgs : List Msg) (sched : List (Nat × Bool)),
    (∀ s, msgs.filter (·.src = s) = (P s).flatMap (sendPackage s)) →
    (∀ s b, (sched.filter (· = (s, b))).length ≤ ((P s).filter (·.blocking = b)).length) →
    ∃ got q', pullAll (inboxOf msgs) sched = some (got, q') ∧
      ∀ s b, (got.filter fun g => g.1 = s ∧ g.2.blocking = b).map (·.2) =
        ((P s).filter (·.blocking = b)).take (sched.filter (· = (s, b))).length

/-- Witness: process 3 has queued an ordinary package for the receiver and then answers a blocking request. -/
def c15Pkgs : List Package := [⟨false, 7, [1, 1, 1], [], []⟩, ⟨true, 8, [2, 2], [], []⟩]

/-- The code violates C15: a receiver that waits for the blocking reply first takes the bytes of the ordinary package that
was queued before, because the bodies of both kinds use the same tag. -/
theorem C15_violated : ¬ C15_full := by
  intro h
  obtain ⟨got, q', h1, -⟩ := h (fun s => if s = 3 then c15Pkgs else []) (c15Pkgs.flatMap (sendPackage 3)) [(3, true)]
    (by
      intro s
      by_cases hs : s = 3
      · subst hs; decide
      · simp only [if_neg hs, List.flatMap_nil]
        rw [List.filter_eq_nil_iff]
        intro m hm
        have : m.src = 3 := by
          simp [c15Pkgs, sendPackage] at hm
          rcases hm with rfl | rfl | rfl | rfl <;> rfl
        simpa [this] using fun e => hs e.symm)
    (by
      intro s b
      by_cases hs : s = 3
      · subst hs; cases b <;> decide
      · have : ((3, true) : Nat × Bool) ≠ (s, b) := by intro e; exact hs (by simp at e; omega)
        simp [this])
  have : pullAll (inboxOf (c15Pkgs.flatMap (sendPackage 3))) [(3, true)] = none := by rfl
  rw [this] at h1
  simp at h1

/-- If the lengths happen to agree the receiver silently gets the bytes of the other package. -/
theorem C15_wrong_body_violated : ∃ q', pull (inboxOf ((
      [⟨false, 7, [1, 1], [], []⟩, ⟨true, 8, [2, 2], [], []⟩] : List Package).flatMap (sendPackage 3))) 3 true =
    some (⟨true, 8, [1, 1], [], []⟩, q') := ⟨_, rfl⟩

/-- C15, proved part: for any number of sources and packages, any interleaving of the arriving messages and any schedule that
takes the packages of each source in the order in which they were sent (in particular if each source sends only one
kind), every receive succeeds and yields exactly the next package of that source.
Missing: a blocking receive that overtakes an ordinary package of the same source (see `C15_violated`). -/
theorem C15_packages_in_order_partial (P : Nat → List Package) (msgs : List Msg) (sched : List (Nat × Bool))
    (hsent : ∀ s, msgs.filter (·.src = s) = (P s).flatMap (sendPackage s))
    (hord : ∀ s, ((sched.filter (·.1 = s)).map (·.2)) <+: (P s).map (·.blocking)) :
    ∃ got q', pullAll (inboxOf msgs) sched = some (got, q') ∧ got.map (·.1) = sched.map (·.1) ∧
      ∀ s, (got.filter (·.1 = s)).map (·.2) <+: P s :=
  pullAll_spec sched P _ (holds_of_sent hsent) hord

/-- Two sources, interleaved messages, packages with raw buffers. -/
example : ∃ q', pullAll (inboxOf [⟨1, .object, .info ⟨5, 2, [1], [1]⟩⟩, ⟨2, .object, .info ⟨6, 1, [], []⟩⟩,
      ⟨1, .buffer, .bytes [1, 2]⟩, ⟨2, .buffer, .bytes [9]⟩, ⟨1, .buffer, .bytes [3]⟩]) [(2, false), (1, false)] =
    some ([(2, ⟨false, 6, [9], [], []⟩), (1, ⟨false, 5, [1, 2], [[3]], [1]⟩)], q') := ⟨_, rfl⟩

private theorem map_flat (ps : List Package) :
    ps.flatMap pkgBytes = (ps.flatMap fun p => p.sData :: p.rawBuffers).map Payload.bytes := by
  induction ps with
  | nil => rfl
  | cons a t ih => simp only [List.flatMap_cons, ih, List.map_append, pkgBytes, List.map_cons]

private theorem prefix_bytes {a b : List Bytes} (h : a.map Payload.bytes <+: b.map Payload.bytes) : a <+: b := by
  induction a generalizing b with
  | nil => simp
  | cons x t ih =>
    cases b with
    | nil => simp at h
    | cons y u =>
      simp only [List.map_cons, List.cons_prefix_cons, Payload.bytes.injEq] at h
      exact List.cons_prefix_cons.2 ⟨h.1, ih h.2⟩

/-- C15, exactly, for one receive: if `p` is the first queued package of the awaited kind, the receiver gets `p` if and only if the
byte messages of `p` are those at the front of all byte messages of the source, whatever kinds of packages are queued before it. -/
theorem C15_exactly_partial (ps : List Package) (msgs : List Msg) (s : Nat) (p : Package) (older newer : List Package)
    (hsent : msgs.filter (·.src = s) = ps.flatMap (sendPackage s)) (hps : ps = older ++ p :: newer)
    (hfirst : ∀ x ∈ older, x.blocking ≠ p.blocking) :
    (∃ q', pull (inboxOf msgs) s p.blocking = some (p, q')) ↔
      (p.sData :: p.rawBuffers) <+: ps.flatMap fun x => x.sData :: x.rawBuffers := by
  have hH : Holds (fun x => if x = s then ps else []) (inboxOf (msgs.filter (·.src = s))) := by
    apply holds_of_sent
    intro x
    by_cases hx : x = s
    · subst hx; rw [List.filter_filter]; simpa using hsent
    · simp only [if_neg hx, List.flatMap_nil, List.filter_filter]
      rw [List.filter_eq_nil_iff]
      intro m _
      simp only [Bool.and_eq_true, decide_eq_true_eq]
      rintro ⟨a, b⟩
      exact hx (a.symm.trans b)
  have hin : ∀ t, inboxOf msgs s t = inboxOf (msgs.filter (·.src = s)) s t := by
    intro t
    unfold inboxOf
    rw [List.filter_filter]
    congr 1
    apply List.filter_congr
    intro m _
    by_cases h1 : m.src = s <;> simp [h1]
  obtain ⟨hb, hi⟩ := hH s
  simp only [if_true] at hb hi
  rw [← hin] at hb
  constructor
  · rintro ⟨q', h⟩
    have := (pull_some h).2
    rw [hb, map_flat] at this
    exact prefix_bytes (by simpa [pkgBytes] using this)
  · rintro ⟨r, hr⟩
    have hi := hi p.blocking
    rw [← hin, hps, List.filter_append, List.filter_eq_nil_iff.2 (by simpa using hfirst), List.nil_append,
      List.filter_cons_of_pos (by simp), List.map_cons] at hi
    rw [map_flat, ← hr, List.map_append] at hb
    obtain ⟨q', h, -⟩ := pull_spec hi (by rw [hb]; rfl)
    exact ⟨q', h⟩

/-- The ordinary package in front has another body: the receiver of the blocking reply does not get it, whatever its length. -/
example (x y : Bytes) (h : x ≠ y) : ¬ ∃ q', pull (inboxOf ((
      [⟨false, 7, x, [], []⟩, ⟨true, 8, y, [], []⟩] : List Package).flatMap (sendPackage 3))) 3 true = some (⟨true, 8, y, [], []⟩, q') := by
  rw [C15_exactly_partial [⟨false, 7, x, [], []⟩, ⟨true, 8, y, [], []⟩] _ 3 ⟨true, 8, y, [], []⟩ [⟨false, 7, x, [], []⟩] []
    (by simp [sendPackage]) rfl (by simp)]
  simpa using fun e => h e.symm

end Verif.Props
