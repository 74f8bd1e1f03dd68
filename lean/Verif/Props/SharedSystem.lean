import Verif.Lemmas.SharedReuse

/-! Properties C91, C92 and C93: the shared object store of all hosts as a whole. -/
namespace Verif.Props
open Verif.SharedSystem Verif.SharedBuffer Verif.Shm Verif.Spec

/-! ## C91 values keep their contents -/

/-- C91: in every history, every value that a process has read from shared memory and still holds consists of the bytes
that were put under its id. -/
def C91_full : Prop :=
  ∀ (sizes : List (Nat × Nat)) (ops : List Op) (s : Sys), (Sys.init sizes).run ops = some s →
    ∀ n ∈ s.nodes, ∀ v ∈ n.views, Intact s n v

/-- C91, as far as it holds: in every history in which objects that are just being looked up are registered by somebody
during cleanups, a value consists of the bytes that were put under its id as long as any process on any host is
registered for that id. -/
theorem C91_registered_values_intact_partial (sizes : List (Nat × Nat)) (ops : List Op) (s : Sys)
    (hg : GuardedGets (Sys.init sizes) ops) (hr : (Sys.init sizes).run ops = some s) :
    ∀ n ∈ s.nodes, ∀ v ∈ n.views, Held s v.id → Intact s n v := by
  have hi := sinv_run ops (sinv_init sizes) hg hr
  rintro n hn v hv ⟨n', hn', g, hg', hgv⟩
  obtain ⟨⟨d, t, hd, hinfo⟩, hpl⟩ := hi.view n hn v hv
  refine ⟨d, hd, ?_⟩
  rcases hpl with ⟨r, h1, h2, h3⟩ | hdead
  · obtain ⟨a, b, i⟩ := hi.node n hn
    have := (i.pub _ r h1 h2).1 d hd t
    rw [h3, ← hinfo] at this
    exact this
  · obtain ⟨a, b, i⟩ := hi.node n' hn'
    obtain ⟨r, e1, e2, e3⟩ := i.hold g hg'
    rw [hgv] at e1 e3
    rw [← e2] at e3
    exact absurd hdead (not_dead_of_pub hn' e1 e3)

/-- Decides `GuardedGets`. -/
def guardedB : Sys → List Op → Bool
  | _, [] => true
  | s, op :: ops =>
    (match op with
      | .cleanup _ => s.nodes.all fun n => n.checked.all fun c => s.nodes.any fun m => m.holders.any fun h => h.id = c.id
      | _ => true) &&
    match s.step op with
    | none => true
    | some s' => guardedB s' ops

theorem guardedB_sound (ops : List Op) : ∀ s, guardedB s ops = true → GuardedGets s ops := by
  induction ops with
  | nil => intro s _; trivial
  | cons op t ih =>
    intro s h
    simp only [guardedB, Bool.and_eq_true] at h
    refine ⟨?_, ?_⟩
    · rintro l rfl n hn c hc
      have h1 := h.1
      simp only [List.all_eq_true, List.any_eq_true, decide_eq_true_eq] at h1
      obtain ⟨m, hm, g, hg, e⟩ := h1 n hn c hc
      exact ⟨m, hm, g, hg, e⟩
    · intro s' hs
      have h2 := h.2
      rw [hs] at h2
      exact ih s' h2

/-- The first value that a host holds, and what it consists of now. -/
def firstView (s : Sys) : Option (DataId × Serialized) :=
  s.nodes.head?.bind fun n => n.views.head?.map fun v => (v.id, SharedBuffer.read n.mem v.first v.info)

theorem firstView_not_intact {s : Sys} {id : DataId} {d d' : Serialized} (h : firstView s = some (id, d))
    (ho : s.objs id = some d') (hne : d ≠ d') : ∃ n ∈ s.nodes, ∃ v ∈ n.views, v.id = id ∧ ¬ Intact s n v := by
  unfold firstView at h
  obtain ⟨n, hn, h⟩ := Option.bind_eq_some_iff.1 h
  obtain ⟨v, hv, h⟩ := Option.map_eq_some_iff.1 h
  simp only [Prod.mk.injEq] at h
  refine ⟨n, List.mem_of_head? hn, v, List.mem_of_head? hv, h.1, ?_⟩
  rintro ⟨d2, e1, e2⟩
  rw [h.1, ho] at e1
  simp only [Option.some.injEq] at e1
  rw [h.2] at e2
  exact hne (e2.trans e1.symm)

/-- Process 1 gets an object of process 0; both drop their references, process 1 keeps the value; the memory is reclaimed
and used for the next object. -/
def exOutlive : List Op :=
  [.put 0 0 ⟨0, 0⟩ ⟨[1], [[2, 3]], [1]⟩, .write 0 ⟨0, 0⟩, .publish 0 ⟨0, 0⟩,
   .check 0 1 ⟨0, 0⟩ 0, .incr 0 1 ⟨0, 0⟩ 0, .read 0 1 ⟨0, 0⟩ 0,
   .finalize 0 1 ⟨0, 0⟩ 0, .finalize 0 0 ⟨0, 0⟩ 0, .cleanup [⟨0, 0⟩],
   .put 0 0 ⟨0, 1⟩ ⟨[7], [[8, 9]], [1]⟩, .write 0 ⟨0, 1⟩]

/-- C91 is violated: finalizers are attached to references and not to values (shared_object_store.py:312-316), but the
values are windows into shared memory (449-461). A value whose reference is gone changes when its memory is reused; no
race is involved. -/
theorem C91_value_outlives_reference_violated : ¬ C91_full ∧
    ∃ s, (Sys.init [(8, 8)]).run exOutlive = some s ∧ GuardedGets (Sys.init [(8, 8)]) exOutlive ∧
      s.objs ⟨0, 0⟩ = some ⟨[1], [[2, 3]], [1]⟩ ∧ firstView s = some (⟨0, 0⟩, ⟨[7], [[8, 9]], [1]⟩) := by
  obtain ⟨s, hr, hs⟩ := Option.map_eq_some_iff.1
    (show ((Sys.init [(8, 8)]).run exOutlive).map (fun s => (s.objs ⟨0, 0⟩, firstView s)) =
      some (some ⟨[1], [[2, 3]], [1]⟩, some (⟨0, 0⟩, ⟨[7], [[8, 9]], [1]⟩)) by decide +kernel)
  simp only [Prod.mk.injEq] at hs
  refine ⟨?_, s, hr, ?_, hs.1, hs.2⟩
  · intro hf
    obtain ⟨n, hn, v, hv, -, hi⟩ := firstView_not_intact hs.2 hs.1 (by decide)
    exact hi (hf _ _ _ hr n hn v hv)
  · exact guardedB_sound _ _ (by decide +kernel)

/-- Process 1 finds the object and is interrupted before it registers. -/
def exLookupOvertaken : List Op :=
  [.put 0 0 ⟨0, 0⟩ ⟨[1], [[2, 3]], [1]⟩, .write 0 ⟨0, 0⟩, .publish 0 ⟨0, 0⟩,
   .check 0 1 ⟨0, 0⟩ 0, .finalize 0 0 ⟨0, 0⟩ 0, .cleanup [⟨0, 0⟩],
   .put 0 0 ⟨0, 1⟩ ⟨[7], [[8, 9]], [1]⟩, .write 0 ⟨0, 1⟩, .publish 0 ⟨0, 1⟩,
   .incr 0 1 ⟨0, 0⟩ 0, .read 0 1 ⟨0, 0⟩ 0]

/-- C91 is violated for registered processes, too, if a cleanup comes between check and registration: the process is
registered for the object and its value is another object. -/
theorem C91_lookup_overtaken_violated : ∃ s, (Sys.init [(8, 8)]).run exLookupOvertaken = some s ∧ Held s ⟨0, 0⟩ ∧
    s.objs ⟨0, 0⟩ = some ⟨[1], [[2, 3]], [1]⟩ ∧ firstView s = some (⟨0, 0⟩, ⟨[7], [[8, 9]], [1]⟩) := by
  obtain ⟨s, hr, hs⟩ := Option.map_eq_some_iff.1
    (show ((Sys.init [(8, 8)]).run exLookupOvertaken).map (fun s =>
        (s.objs ⟨0, 0⟩, firstView s, s.nodes.any fun n => n.holders.any fun h => h.id = ⟨0, 0⟩)) =
      some (some ⟨[1], [[2, 3]], [1]⟩, some (⟨0, 0⟩, ⟨[7], [[8, 9]], [1]⟩), true) by decide +kernel)
  simp only [Prod.mk.injEq] at hs
  refine ⟨s, hr, ?_, hs.1, hs.2.1⟩
  have := hs.2.2
  rw [List.any_eq_true] at this
  obtain ⟨n, hn, h⟩ := this
  rw [List.any_eq_true] at h
  obtain ⟨g, hg, h⟩ := h
  exact ⟨n, hn, g, hg, by simpa using h⟩

/-- An object is put on host 0, copied to host 1 and read there; host 0 drops it, a cleanup comes, another object is
stored on host 1: the value on host 1 is intact. -/
def exTwoHosts : List Op :=
  [.put 0 0 ⟨0, 0⟩ ⟨[1], [[2, 3]], [1]⟩, .write 0 ⟨0, 0⟩, .publish 0 ⟨0, 0⟩,
   .ask 1 5 ⟨0, 0⟩ 0, .sync 1 ⟨0, 0⟩ 0, .publish 1 ⟨0, 0⟩, .check 1 5 ⟨0, 0⟩ 0, .incr 1 5 ⟨0, 0⟩ 0, .read 1 5 ⟨0, 0⟩ 0,
   .finalize 0 0 ⟨0, 0⟩ 0, .cleanup [⟨0, 0⟩],
   .put 1 5 ⟨5, 0⟩ ⟨[7], [[8, 9]], [1]⟩, .write 1 ⟨5, 0⟩, .publish 1 ⟨5, 0⟩]

set_option synthInstance.maxSize 1000 in
example : ((Sys.init [(8, 8), (8, 8)]).run exTwoHosts).map (fun s =>
      (s.nodes.map fun n => (n.host.mgr.resv ⟨0, 0⟩, n.holders.length),
       s.nodes.map fun n => n.views.map fun v => (v.proc, SharedBuffer.read n.mem v.first v.info),
       s.nodes.map fun n => slice n.mem 0 8)) =
    some ([(some ⟨0, 3, 0⟩, 0), (some ⟨0, 3, 0⟩, 3)], [[], [(5, ⟨[1], [[2, 3]], [1]⟩)]],
      [[1, 2, 3, 0, 0, 0, 0, 0], [1, 2, 3, 7, 8, 9, 0, 0]]) := by
  decide +kernel

/-- C91, when no reference is left: a value that was read while somebody was registered for its object keeps the bytes that were put, whatever is
dropped and cleaned up afterwards, as long as none of its bytes is reserved for an object that is being stored. Missing: when its memory is used again
(`C91_value_outlives_reference_violated`). -/
theorem C91_until_reuse_partial (sizes : List (Nat × Nat)) (pre more : List Op) (s s' : Sys) (k : Nat) (n n' : Node) (v : View)
    (hg : GuardedGets (Sys.init sizes) pre) (hr : (Sys.init sizes).run pre = some s) (hk : s.nodes[k]? = some n) (hv : v ∈ n.views)
    (hh : Held s v.id) (hm : s.run more = some s') (hk' : s'.nodes[k]? = some n')
    (hfree : ∀ first u m, first <+: more → s.run first = some u → u.nodes[k]? = some m → ∀ p ∈ m.pend,
      p.resv.last ≤ v.first ∨ v.first + (v.info.sDataLen + v.info.rawLens.sum) ≤ p.resv.first) : Intact s' n' v := by
  obtain ⟨d, hd, hread⟩ := C91_registered_values_intact_partial sizes pre s hg hr n (List.mem_of_getElem? hk) v hv hh
  have hj : ∀ j, v.first ≤ j → j < v.first + infoDataSize v.info → n'.mem j = n.mem j := by
    intro j h1 h2
    unfold infoDataSize at h2
    obtain ⟨⟨m, hm1, e⟩, -⟩ := frame_run more (j := j) hk hm (fun first u m a b c p hp => by
      have := hfree first u m a b c p hp
      omega)
    rw [hk'] at hm1
    simp only [Option.some.injEq] at hm1
    rw [hm1]
    exact e
  have ho : s'.objs v.id = some d := objs_run more hm _ _ hd
  exact ⟨d, ho, by rw [read_congr hj]; exact hread⟩

/-- The value of an object whose memory was reclaimed keeps its bytes while a larger object is stored in another place, and does not when a smaller one
is stored in its place. -/
def exReclaimed : List Op :=
  [.put 0 0 ⟨0, 0⟩ ⟨[1], [[2, 3]], [1]⟩, .write 0 ⟨0, 0⟩, .publish 0 ⟨0, 0⟩, .check 0 1 ⟨0, 0⟩ 0, .incr 0 1 ⟨0, 0⟩ 0, .read 0 1 ⟨0, 0⟩ 0,
   .put 0 0 ⟨0, 1⟩ ⟨[4], [], []⟩, .write 0 ⟨0, 1⟩, .publish 0 ⟨0, 1⟩, .finalize 0 1 ⟨0, 0⟩ 0, .finalize 0 0 ⟨0, 0⟩ 0, .cleanup [⟨0, 0⟩],
   .put 0 0 ⟨0, 2⟩ ⟨[5, 6, 7, 8], [], []⟩, .write 0 ⟨0, 2⟩, .publish 0 ⟨0, 2⟩, .put 0 0 ⟨0, 3⟩ ⟨[9], [], []⟩, .write 0 ⟨0, 3⟩]

example : ((Sys.init [(16, 16)]).run (exReclaimed.take 15)).map (fun s =>
      (s.nodes.map fun n => (n.host.mgr.resv ⟨0, 0⟩, n.host.mgr.resv ⟨0, 2⟩), firstView s)) =
      some ([(none, some ⟨4, 8, 0⟩)], some (⟨0, 0⟩, ⟨[1], [[2, 3]], [1]⟩)) ∧
    ((Sys.init [(16, 16)]).run exReclaimed).map firstView = some (some (⟨0, 0⟩, ⟨[9], [[2, 3]], [1]⟩)) := by
  decide +kernel

/-! ## C92 unused memory is reclaimed -/

/-- C92: in every history with guarded lookups, a completed cleanup round that lists an object for which no process is
registered leaves no host with memory for it. -/
theorem C92_unused_objects_reclaimed (sizes : List (Nat × Nat)) (ops : List Op) (s s' : Sys) (l : List DataId) (id : DataId)
    (hg : GuardedGets (Sys.init sizes) ops) (hr : (Sys.init sizes).run ops = some s) (hid : id ∈ l) (hu : ¬ Held s id)
    (hs : s.step (.cleanup l) = some s') : ¬ Stored s' id := by
  have hi := sinv_run ops (sinv_init sizes) hg hr
  simp only [Sys.step] at hs
  rw [Option.map_eq_some_iff] at hs
  obtain ⟨hs1, hc, rfl⟩ := hs
  obtain ⟨L, hL⟩ := hi.pending
  obtain ⟨hlen, heff⟩ := clearAll_effect hL hc
  rw [List.length_map] at hlen
  have hz : gmax (s.nodes.map (·.host)) id = 0 := by
    rw [gmax_zero]
    intro h hh
    obtain ⟨n, hn, rfl⟩ := List.mem_map.1 hh
    obtain ⟨a, b, i⟩ := hi.node n hn
    unfold Host.hasRef
    split
    · rename_i r hres
      cases hck : checkInfo n.host.words id r.svc with
      | false => simp [refNumber, hck]
      | true =>
        have h3 := (i.pub id r hres hck).2.2
        have h0 : cnt n.holders id = 0 := cnt_zero (fun g hg e => hu ⟨n, hn, g, hg, e⟩)
        simp [refNumber, hck, h3, h0]
    · rfl
  rintro ⟨m, hm, hne⟩
  obtain ⟨i, hil, hmi⟩ := List.getElem_of_mem hm
  rw [List.length_zipWith] at hil
  rw [List.getElem_zipWith] at hmi
  have hi1 : i < s.nodes.length := by omega
  have hi2 : i < hs1.length := by omega
  have := (heff i s.nodes[i].host hs1[i] (by simp [hi1]) (by simp [hi2])).1 id
  rw [if_pos ⟨List.mem_append.2 (Or.inr hid), hz⟩] at this
  rw [← hmi] at hne
  exact hne this

/-- C92, the other half: a cleanup round never takes the memory of an object for which some process is registered. -/
theorem C92_used_objects_kept (sizes : List (Nat × Nat)) (ops : List Op) (s s' : Sys) (l : List DataId) (id : DataId)
    (hg : GuardedGets (Sys.init sizes) ops) (hr : (Sys.init sizes).run ops = some s) (hu : Held s id)
    (hs : s.step (.cleanup l) = some s') :
    s'.nodes.map (fun n => n.host.mgr.resv id) = s.nodes.map fun n => n.host.mgr.resv id := by
  have hi := sinv_run ops (sinv_init sizes) hg hr
  simp only [Sys.step] at hs
  rw [Option.map_eq_some_iff] at hs
  obtain ⟨hs1, hc, rfl⟩ := hs
  obtain ⟨L, hL⟩ := hi.pending
  obtain ⟨hlen, heff⟩ := clearAll_effect hL hc
  rw [List.length_map] at hlen
  have hz : gmax (s.nodes.map (·.host)) id ≠ 0 := by
    obtain ⟨n, hn, g, hg, rfl⟩ := hu
    intro h0
    rw [gmax_zero] at h0
    obtain ⟨a, b, i⟩ := hi.node n hn
    exact hasRef_of_hold i hg (h0 _ (List.mem_map.2 ⟨n, hn, rfl⟩))
  apply List.ext_getElem
  · simp; omega
  · intro i h1 h2
    simp only [List.length_map, List.length_zipWith] at h1 h2
    have hi2 : i < hs1.length := by omega
    have := (heff i s.nodes[i].host hs1[i] (by simp [h2]) (by simp [hi2])).1 id
    rw [if_neg (fun h => hz h.2)] at this
    simp only [List.getElem_map, List.getElem_zipWith]
    exact this

/-- After both processes drop the object it is reclaimed, not before. -/
example : (((Sys.init [(8, 8)]).run (exOutlive.take 7)).bind fun s => (s.step (.cleanup [⟨0, 0⟩])).map fun s' =>
      (s'.nodes.map fun n => n.host.mgr.resv ⟨0, 0⟩)) = some [some ⟨0, 3, 0⟩] ∧
    (((Sys.init [(8, 8)]).run (exOutlive.take 8)).bind fun s => (s.step (.cleanup [⟨0, 0⟩])).map fun s' =>
      (s'.nodes.map fun n => n.host.mgr.resv ⟨0, 0⟩)) = some [none] := by
  decide +kernel

/-! ## C93 a cleanup does not end a monitor -/

/-- C93: in every history with guarded lookups, every cleanup round completes. -/
def C93_full : Prop :=
  ∀ (sizes : List (Nat × Nat)) (ops : List Op) (s : Sys) (l : List DataId), sizes ≠ [] →
    GuardedGets (Sys.init sizes) ops → (Sys.init sizes).run ops = some s → s.step (.cleanup l) ≠ none

/-- Host 1 has reserved memory for a copy of an object; its owner drops it and the cleanup round comes before the copy is
complete. -/
def exCopying : List Op :=
  [.put 0 0 ⟨0, 0⟩ ⟨[1], [[2, 3]], [1]⟩, .write 0 ⟨0, 0⟩, .publish 0 ⟨0, 0⟩, .ask 1 5 ⟨0, 0⟩ 0,
   .finalize 0 0 ⟨0, 0⟩ 0]

/-- C93 is violated: `delete_service_info` raises `RuntimeError` for a reserved object that is not published yet
(shared_object_store.py:719-723), nothing in the monitor loop handles it. -/
theorem C93_cleanup_during_copy_violated : ¬ C93_full := by
  intro hf
  obtain ⟨s, hr, hs⟩ := Option.map_eq_some_iff.1
    (show ((Sys.init [(8, 8), (8, 8)]).run exCopying).map (fun s => (s.step (.cleanup [⟨0, 0⟩])).isNone) = some true by
      decide +kernel)
  refine hf _ exCopying s [⟨0, 0⟩] (by simp) ?_ hr (by simpa using hs)
  exact guardedB_sound _ _ (by decide +kernel)

/-- C93, as far as it holds: a cleanup round completes if every object that is being put or copied at that time and is
listed for cleanup has a registered user somewhere. -/
theorem C93_cleanup_completes_partial (sizes : List (Nat × Nat)) (ops : List Op) (s : Sys) (l : List DataId)
    (hne : sizes ≠ []) (hg : GuardedGets (Sys.init sizes) ops) (hr : (Sys.init sizes).run ops = some s)
    (hc : ∀ n ∈ s.nodes, ∀ c ∈ n.checked, Held s c.id)
    (ht : ∀ n ∈ s.nodes, ∀ id ∈ n.host.mgr.pending ++ l, InTransfer s id → Held s id) :
    s.step (.cleanup l) ≠ none := by
  have hi := sinv_run ops (sinv_init sizes) hg hr
  have hlen := run_length ops hr
  obtain ⟨hs, h⟩ := clearAll_ok (l := l) hi (by
    intro e
    rw [e] at hlen
    simp only [Sys.init, List.length_map, List.length_nil] at hlen
    exact hne (List.eq_nil_of_length_eq_zero hlen.symm)) hc ht
  simp only [Sys.step, h]
  simp

/-- The same history, but the copy is complete when the cleanup comes. -/
example : ((Sys.init [(8, 8), (8, 8)]).run (exCopying ++ [.sync 1 ⟨0, 0⟩ 0, .publish 1 ⟨0, 0⟩])).map (fun s =>
    ((s.step (.cleanup [⟨0, 0⟩])).isSome, s.nodes.map fun n => n.host.mgr.resv ⟨0, 0⟩)) =
    some (true, [some ⟨0, 3, 0⟩, some ⟨0, 3, 0⟩]) := by
  decide +kernel

/-- C93, exactly: a cleanup round ends a monitor if and only if an object listed for cleanup, now or earlier, is being put or
copied on some host and nobody is registered for it. Missing: such rounds are not excluded. -/
theorem C93_exact_partial (sizes : List (Nat × Nat)) (ops : List Op) (s : Sys) (l : List DataId)
    (hne : sizes ≠ []) (hg : GuardedGets (Sys.init sizes) ops) (hr : (Sys.init sizes).run ops = some s)
    (hc : ∀ n ∈ s.nodes, ∀ c ∈ n.checked, Held s c.id) :
    s.step (.cleanup l) = none ↔
      ∃ id, (id ∈ l ∨ ∃ n ∈ s.nodes, id ∈ n.host.mgr.pending) ∧ InTransfer s id ∧ ¬ Held s id := by
  constructor
  · intro h
    apply Classical.byContradiction
    intro hno
    refine C93_cleanup_completes_partial sizes ops s l hne hg hr hc (fun n hn id hid ht => ?_) h
    apply Classical.byContradiction
    intro hh
    refine hno ⟨id, ?_, ht, hh⟩
    rcases List.mem_append.1 hid with hid | hid
    · exact Or.inr ⟨n, hn, hid⟩
    · exact Or.inl hid
  · rintro ⟨id, hid, ht, hh⟩
    have hi := sinv_run ops (sinv_init sizes) hg hr
    have hn : ∃ n0 ∈ s.nodes, id ∈ n0.host.mgr.pending ++ l := by
      rcases hid with hid | ⟨n, hn, hid⟩
      · obtain ⟨n, hn, _⟩ := ht
        exact ⟨n, hn, List.mem_append.2 (Or.inr hid)⟩
      · exact ⟨n, hn, List.mem_append.2 (Or.inl hid)⟩
    obtain ⟨n0, hn0, hid⟩ := hn
    simp only [Sys.step, clearAll_fails hi hc hn0 hid ht hh]
    rfl

/-- The object of the violation listed while its owner still has it, then dropped during the copy: the next round fails although
it lists nothing. -/
example : (((Sys.init [(8, 8), (8, 8)]).run (exCopying.take 4 ++ [.cleanup [⟨0, 0⟩], .finalize 0 0 ⟨0, 0⟩ 0])).map fun s =>
      (s.nodes.map fun n => (n.host.mgr.pending, n.pend.length, n.holders.length), (s.step (.cleanup [])).isSome)) =
    some ([([⟨0, 0⟩], 0, 0), ([⟨0, 0⟩], 1, 0)], false) := by decide +kernel

end Verif.Props
