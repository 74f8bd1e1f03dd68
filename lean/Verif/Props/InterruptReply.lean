import Verif.Lemmas.InterruptReply

/-! C136: replies of the monitor after calls that a signal interrupted. -/
namespace Verif.Props

open Verif.InterruptReply

/-- A reply that a request can have: its kind, the identity of a reservation, the partition of a `wait`. -/
def ReplyFor : Request → Reply → Prop
  | .count, .count _ => True
  | .reserve id _, .range id' _ _ _ => id' = id
  | .wait ids num, .partition ready notReady => (ready ++ notReady).Perm ids ∧ (ready.length : Int) = num
  | .shutdown, .shutdown => True
  | _, _ => False

/-- C136: every call that receives a reply receives the reply to its own request, and it is one that the request can have. -/
def C136_full : Prop :=
  ∀ (place : List (Nat × Nat × Nat) → Nat → Nat) (acts : List Act) (s : State), run place .init acts = some s →
    ∀ e ∈ s.log, e.answers = e.call ∧ ReplyFor e.request e.reply

private theorem fits_for {r : Request} {a : Reply} (h : Fits r a) : ReplyFor r a := by
  cases h with
  | count => trivial
  | range => rfl
  | partition _ _ _ _ h hn => exact ⟨h, hn⟩
  | shutdown => trivial

private theorem log_same {place : List (Nat × Nat × Nat) → Nat → Nat} {s s' : State} {a : Act} (ha : a ≠ .reply)
    (hs : step place s a = some s') : s'.log = s.log := by
  cases a with
  | call r => simp only [step] at hs; split at hs <;> cases hs; rfl
  | request => simp only [step] at hs; split at hs <;> cases hs; rfl
  | report ids => simp only [step] at hs; split at hs <;> cases hs; rfl
  | reply => exact absurd rfl ha
  | signal => simp only [step] at hs; split at hs <;> cases hs; rfl
  | late => simp only [step] at hs; split at hs <;> cases hs; rfl

/-- C136 (part): if no signal arrives between a request and the reception of its reply, every call receives its own reply, and it fits. Signals
after the reception do no harm. Missing: signals before the reception. -/
theorem C136_received_partial (place : List (Nat × Nat × Nat) → Nat → Nat) (acts : List Act) (s : State) (hs : .signal ∉ acts)
    (h : run place .init acts = some s) : ∀ e ∈ s.log, e.answers = e.call ∧ ReplyFor e.request e.reply := by
  intro e he
  have := (inv_run acts inv_init hs h).log e he
  exact ⟨this.1, fits_for this.2⟩

/-- Memory is given out in order. -/
def exPlace : List (Nat × Nat × Nat) → Nat → Nat := fun t _ => (t.map (·.2.2)).sum

example : (run exPlace .init [.call (.reserve 5 10), .request, .late, .call (.reserve 7 3), .request, .reply, .call (.wait [1, 2] 1), .request,
      .report [some 2], .reply, .call .count, .request, .reply]).map (·.log) =
    some [⟨1, .reserve 7 3, 1, .range 7 10 3 true⟩, ⟨2, .wait [1, 2] 1, 2, .partition [2] [1]⟩, ⟨3, .count, 3, .count 1⟩] := by decide

/-- Ranges of memory: whatever was interrupted, a range that is received is the one that the monitor has recorded for the identity in the reply,
and each identity is recorded once. -/
theorem C136_ranges_partial (place : List (Nat × Nat × Nat) → Nat → Nat) (acts : List Act) (s : State) (h : run place .init acts = some s) :
    (∀ e ∈ s.log, ∀ id first size b, e.reply = .range id first size b → (id, first, size) ∈ s.mon.table) ∧
    (s.mon.table.map (·.1)).Nodup := by
  suffices hh : (∀ e ∈ s.log, ∀ id first size b, e.reply = .range id first size b → (id, first, size) ∈ s.mon.table) ∧
      (∀ x ∈ s.replies, ∀ id first size b, x.2 = .range id first size b → (id, first, size) ∈ s.mon.table) ∧
      (s.mon.table.map (·.1)).Nodup from ⟨hh.1, hh.2.2⟩
  have hparts : ∀ k l, ∀ x ∈ partitions k l, ∀ id first size b, x.2 ≠ .range id first size b := by
    intro k l x hx
    replace hx := List.mem_map.1 hx
    obtain ⟨y, _, rfl⟩ := hx
    simp
  induction acts using List.reverseRecOn generalizing s with
  | nil => cases h; simp [State.init]
  | append_singleton as a ih =>
    obtain ⟨t, ht, hs⟩ := run_concat h
    obtain ⟨h1, h2, h3⟩ := ih t ht
    cases a with
    | call r => simp only [step] at hs; split at hs <;> cases hs; exact ⟨h1, h2, h3⟩
    | request =>
      simp only [step] at hs
      split at hs
      · rename_i k r rest hend hreq
        cases hs
        cases r with
        | count =>
          refine ⟨h1, fun x hx => ?_, h3⟩
          rcases List.mem_append.1 hx with hx | hx
          · exact h2 x hx
          · simp only [Mon.handle, List.mem_singleton] at hx; subst hx; simp
        | reserve id size =>
          simp only [Mon.handle]
          split
          · rename_i e he
            refine ⟨h1, fun x hx => ?_, h3⟩
            rcases List.mem_append.1 hx with hx | hx
            · exact h2 x hx
            · simp only [List.mem_singleton] at hx
              subst hx
              intro i f z b hh
              simp only [Reply.range.injEq] at hh
              obtain ⟨rfl, rfl, rfl, _⟩ := hh
              have hid : e.1 = id := by simpa using List.find?_some he
              have := List.mem_of_find?_eq_some he
              rw [← hid]
              exact this
          · rename_i he
            refine ⟨fun e hm i f z b hh => List.mem_append_left _ (h1 e hm i f z b hh), fun x hx i f z b hh => ?_, ?_⟩
            · rcases List.mem_append.1 hx with hx | hx
              · exact List.mem_append_left _ (h2 x hx i f z b hh)
              · simp only [List.mem_singleton] at hx
                subst hx
                simp only [Reply.range.injEq] at hh
                obtain ⟨rfl, rfl, rfl, _⟩ := hh
                simp
            · simp only [List.map_append, List.map_cons, List.map_nil]
              refine List.nodup_append.2 ⟨h3, by simp, fun x hx y hy e => ?_⟩
              simp only [List.mem_singleton] at hy
              replace hx := List.mem_map.1 hx
              obtain ⟨z, hz, rfl⟩ := hx
              have := List.find?_eq_none.1 he z hz
              simp [e, hy] at this
        | wait ids num =>
          refine ⟨h1, fun x hx i f z b hh => ?_, h3⟩
          rcases List.mem_append.1 hx with hx | hx
          · exact h2 x hx i f z b hh
          · exact absurd hh (hparts _ _ x hx i f z b)
        | shutdown =>
          refine ⟨h1, fun x hx => ?_, h3⟩
          rcases List.mem_append.1 hx with hx | hx
          · exact h2 x hx
          · simp only [Mon.handle, List.mem_singleton] at hx; subst hx; simp
      · cases hs
    | report ids =>
      simp only [step] at hs
      split at hs
      · cases hs
      · cases hs
        refine ⟨h1, fun x hx i f z b hh => ?_, h3⟩
        rcases List.mem_append.1 hx with hx | hx
        · exact h2 x hx i f z b hh
        · exact absurd hh (hparts _ _ x hx i f z b)
    | reply =>
      simp only [step] at hs
      split at hs
      · rename_i n r k a rest hcall hrep
        cases hs
        refine ⟨fun e he => ?_, fun x hx => h2 x (by rw [hrep]; simp [hx]), h3⟩
        rcases List.mem_append.1 he with he | he
        · exact h1 e he
        · simp only [List.mem_singleton] at he
          subst he
          exact h2 (k, a) (by rw [hrep]; simp)
      · cases hs
    | signal => simp only [step] at hs; split at hs <;> cases hs; exact ⟨h1, h2, h3⟩
    | late =>
      simp only [step] at hs
      split at hs
      · rename_i c x rest hcall hrep
        cases hs
        exact ⟨h1, fun y hy => h2 y (by rw [hrep]; simp [hy]), h3⟩
      · cases hs

example : (run exPlace .init [.call (.reserve 5 10), .request, .late, .call (.reserve 5 10), .request, .reply]).map (fun s => (s.log, s.mon.table)) =
    some ([⟨1, .reserve 5 10, 1, .range 5 0 10 false⟩], [(5, 0, 10)]) := by decide

/-- Whether the monitor reads a `TASK_DONE`. -/
def replyReport : Act → Bool
  | .report _ => true
  | _ => false

/-- In the history the monitor has read the question of call `k` for the number of tasks, after `n` reports. -/
def ReplyCounted (place : List (Nat × Nat × Nat) → Nat → Nat) (acts : List Act) (k n : Nat) : Prop :=
  ∃ pre post u rest, acts = pre ++ .request :: post ∧ run place .init pre = some u ∧ u.requests = (k, .count) :: rest ∧
    (pre.filter replyReport).length = n

/-- Numbers of tasks: whatever was interrupted, a number that is received is the number of tasks whose reports the monitor had read when it read
the question that it answers. -/
theorem C136_count_partial (place : List (Nat × Nat × Nat) → Nat → Nat) (acts : List Act) (s : State) (h : run place .init acts = some s) :
    ∀ e ∈ s.log, ∀ n, e.reply = .count n → ReplyCounted place acts e.answers n := by
  suffices hh : (∀ e ∈ s.log, ∀ n, e.reply = .count n → ReplyCounted place acts e.answers n) ∧
      (∀ x ∈ s.replies, ∀ n, x.2 = .count n → ReplyCounted place acts x.1 n) ∧
      s.mon.tasks = (acts.filter replyReport).length from hh.1
  have hparts : ∀ k l, ∀ x ∈ partitions k l, ∀ n, x.2 ≠ .count n := by
    intro k l x hx
    replace hx := List.mem_map.1 hx
    obtain ⟨y, _, rfl⟩ := hx
    simp
  have hmono : ∀ as a k n, ReplyCounted place as k n → ReplyCounted place (as ++ [a]) k n := by
    rintro as a k n ⟨pre, post, u, rest, rfl, h2, h3, h4⟩
    exact ⟨pre, post ++ [a], u, rest, by simp, h2, h3, h4⟩
  induction acts using List.reverseRecOn generalizing s with
  | nil => cases h; simp [State.init]
  | append_singleton as a ih =>
    obtain ⟨t, ht, hs⟩ := run_concat h
    obtain ⟨h1, h2, h3⟩ := ih t ht
    replace h1 : ∀ e ∈ t.log, ∀ n, e.reply = .count n → ReplyCounted place (as ++ [a]) e.answers n :=
      fun e he n hn => hmono _ _ _ _ (h1 e he n hn)
    have h2' : ∀ x ∈ t.replies, ∀ n, x.2 = .count n → ReplyCounted place (as ++ [a]) x.1 n :=
      fun e he n hn => hmono _ _ _ _ (h2 e he n hn)
    rw [List.filter_append, List.length_append, ← h3]
    cases a with
    | call r => simp only [step] at hs; split at hs <;> cases hs; exact ⟨h1, h2', rfl⟩
    | request =>
      simp only [step] at hs
      split at hs
      · rename_i k r rest hend hreq
        cases hs
        cases r with
        | count =>
          refine ⟨h1, fun x hx => ?_, rfl⟩
          rcases List.mem_append.1 hx with hx | hx
          · exact h2' x hx
          · simp only [Mon.handle, List.mem_singleton] at hx
            subst hx
            intro n hn
            simp only [Reply.count.injEq] at hn
            exact ⟨as, [], t, rest, rfl, ht, hreq, by rw [← h3, hn]⟩
        | reserve id size =>
          simp only [Mon.handle]
          split
          · refine ⟨h1, fun x hx => ?_, rfl⟩
            rcases List.mem_append.1 hx with hx | hx
            · exact h2' x hx
            · simp only [List.mem_singleton] at hx; subst hx; simp
          · refine ⟨h1, fun x hx => ?_, rfl⟩
            rcases List.mem_append.1 hx with hx | hx
            · exact h2' x hx
            · simp only [List.mem_singleton] at hx; subst hx; simp
        | wait ids num =>
          refine ⟨h1, fun x hx n hn => ?_, rfl⟩
          rcases List.mem_append.1 hx with hx | hx
          · exact h2' x hx n hn
          · exact absurd hn (hparts _ _ x hx n)
        | shutdown =>
          refine ⟨h1, fun x hx => ?_, rfl⟩
          rcases List.mem_append.1 hx with hx | hx
          · exact h2' x hx
          · simp only [Mon.handle, List.mem_singleton] at hx; subst hx; simp
      · cases hs
    | report ids =>
      simp only [step] at hs
      split at hs
      · cases hs
      · cases hs
        refine ⟨h1, fun x hx n hn => ?_, rfl⟩
        rcases List.mem_append.1 hx with hx | hx
        · exact h2' x hx n hn
        · exact absurd hn (hparts _ _ x hx n)
    | reply =>
      simp only [step] at hs
      split at hs
      · rename_i n r k a rest hcall hrep
        cases hs
        refine ⟨fun e he => ?_, fun x hx => h2' x (by rw [hrep]; simp [hx]), rfl⟩
        rcases List.mem_append.1 he with he | he
        · exact h1 e he
        · simp only [List.mem_singleton] at he
          subst he
          exact h2' (k, a) (by rw [hrep]; simp)
      · cases hs
    | signal => simp only [step] at hs; split at hs <;> cases hs; exact ⟨h1, h2', rfl⟩
    | late =>
      simp only [step] at hs
      split at hs
      · rename_i c x rest hcall hrep
        cases hs
        exact ⟨h1, fun y hy => h2' y (by rw [hrep]; simp [hy]), rfl⟩
      · cases hs

example : (run exPlace .init [.report [some 1], .call .count, .signal, .request, .report [some 2], .call .count, .reply]).map (·.log) =
    some [⟨1, .count, 0, .count 1⟩] := by decide

/-- The end: when the monitor has read the request for the end, it reads no other request and no report. -/
theorem C136_end_partial (place : List (Nat × Nat × Nat) → Nat → Nat) (pre post : List Act) (u s : State) (k : Nat)
    (rest : List (Nat × Request)) (hu : run place .init pre = some u) (hq : u.requests = (k, .shutdown) :: rest)
    (h : run place .init (pre ++ .request :: post) = some s) : .request ∉ post ∧ ∀ ids, .report ids ∉ post := by
  have key : ∀ (post : List Act) (t s : State), t.mon.ended = true → run place t post = some s →
      .request ∉ post ∧ ∀ ids, .report ids ∉ post := by
    intro post
    induction post with
    | nil => intro t s _ _; simp
    | cons a as ih =>
      intro t s ht hr
      simp only [run, Option.bind_eq_some_iff] at hr
      obtain ⟨t', h1, hr⟩ := hr
      have hne : a ≠ .request := by rintro rfl; simp [step, ht] at h1
      have hnr : ∀ ids, a ≠ .report ids := by rintro ids rfl; simp [step, ht] at h1
      have ht' : t'.mon.ended = true := by
        cases a with
        | request => exact absurd rfl hne
        | report ids => exact absurd rfl (hnr ids)
        | call r => simp only [step] at h1; split at h1 <;> cases h1; exact ht
        | reply => simp only [step] at h1; split at h1 <;> cases h1; exact ht
        | signal => simp only [step] at h1; split at h1 <;> cases h1; exact ht
        | late => simp only [step] at h1; split at h1 <;> cases h1; exact ht
      obtain ⟨h2, h3⟩ := ih t' s ht' hr
      exact ⟨fun hm => (List.mem_cons.1 hm).elim (fun e => hne e.symm) h2,
        fun ids hm => (List.mem_cons.1 hm).elim (fun e => hnr ids e.symm) (h3 ids)⟩
  rw [run_append, hu] at h
  simp only [Option.bind_some, run, Option.bind_eq_some_iff] at h
  obtain ⟨t, ht, h⟩ := h
  refine key post t s ?_ h
  simp only [step] at ht
  split at ht
  · rename_i k' r' rest' he hr
    rw [hq] at hr
    obtain ⟨⟨rfl, rfl⟩, rfl⟩ := by simpa using hr
    cases ht
    rfl
  · cases ht

example : (run exPlace .init [.call .shutdown, .request, .reply]).isSome ∧ (run exPlace .init [.call .shutdown, .request, .report []]).isNone := by
  decide

/-- Exactly, for programs that do not call `wait`: every call receives the reply to the request that is as many calls older as signals have
arrived before a reply was received. Missing: histories with `wait` (the monitor may reply to an interrupted `wait` later or never). -/
theorem C136_exactly_partial (place : List (Nat × Nat × Nat) → Nat → Nat) (acts : List Act) (s : State)
    (hw : ∀ ids num, .call (.wait ids num) ∉ acts) (h : run place .init (acts ++ [.reply]) = some s) :
    ∃ u e, run place .init acts = some u ∧ s.log = u.log ++ [e] ∧ e.call + 1 = (calls acts).length ∧ (calls acts)[e.call]? = some e.request ∧
      e.answers + acts.count .signal = e.call ∧ ∃ r, (calls acts)[e.answers]? = some r ∧ ReplyFor r e.reply := by
  obtain ⟨u, hu, hs⟩ := run_concat h
  have ho := ord_run acts (fun r hr => by
    replace hr := List.mem_filterMap.1 hr
    obtain ⟨a, ha, hr⟩ := hr
    cases a with
    | call r' =>
      simp only [requestOf, Option.some.injEq] at hr
      subst hr
      cases r' with
      | wait ids num => exact absurd ha (hw ids num)
      | _ => rfl
    | _ => simp [requestOf] at hr) hu
  simp only [step] at hs
  split at hs
  · rename_i n r k a rest hcall hrep
    cases hs
    obtain ⟨d, hd, hn⟩ := ho.order
    rw [hcall, hrep] at hd
    rw [hcall] at hn
    simp only [Option.isSome_some, if_true, List.map_cons, List.cons_append, List.range'_succ, List.cons.injEq] at hd hn
    obtain ⟨hc1, hc2⟩ := ho.call n r hcall
    obtain ⟨r', h1, h2⟩ := ho.reps k a (by rw [hrep]; simp)
    refine ⟨u, _, hu, rfl, hc1.trans ho.next, hc2, ?_, r', h1, fits_for h2⟩
    show k + _ = n
    omega
  · cases hs

example : (run exPlace .init [.call (.reserve 5 10), .signal, .call (.reserve 7 3), .request, .signal, .request, .call (.reserve 8 2), .reply]).map
    (·.log) = some [⟨2, .reserve 8 2, 0, .range 5 0 10 true⟩] := by decide

/-- C136 is violated: after one signal between a request and its reply, every later call receives the reply to another request, in every
history without `wait`. -/
theorem C136_forever_violated (place : List (Nat × Nat × Nat) → Nat → Nat) (pre post : List Act) (u s : State)
    (hw : ∀ ids num, .call (.wait ids num) ∉ pre ++ post) (hsig : .signal ∈ pre) (hu : run place .init pre = some u)
    (h : run place .init (pre ++ post) = some s) : ∃ l, s.log = u.log ++ l ∧ ∀ e ∈ l, e.answers < e.call := by
  induction post using List.reverseRecOn generalizing s with
  | nil => rw [List.append_nil, hu] at h; cases h; exact ⟨[], by simp, by simp⟩
  | append_singleton as a ih =>
    rw [← List.append_assoc] at h
    obtain ⟨t, ht, hs⟩ := run_concat h
    obtain ⟨l, h1, h2⟩ := ih t (fun ids num hm => hw ids num (by rw [← List.append_assoc]; exact List.mem_append_left _ hm)) ht
    by_cases ha : a = .reply
    · subst ha
      obtain ⟨t', e, ht', hlog, _, _, hcount, _⟩ := C136_exactly_partial place (pre ++ as) s
        (fun ids num hm => hw ids num (by rw [← List.append_assoc]; exact List.mem_append_left _ hm)) h
      rw [ht] at ht'
      cases ht'
      have hpos : 0 < (pre ++ as).count Act.signal := List.count_pos_iff.2 (List.mem_append_left _ hsig)
      refine ⟨l ++ [e], by rw [hlog, h1, List.append_assoc], fun x hx => ?_⟩
      rcases List.mem_append.1 hx with hx | hx
      · exact h2 x hx
      · simp only [List.mem_singleton] at hx; subst hx; omega
    · exact ⟨l, by rw [log_same ha hs, h1], h2⟩

example : (run exPlace .init [.call .count, .signal, .request, .report [some 1], .call .count, .request, .reply, .report [some 2], .call .count,
    .request, .reply]).map (·.log) = some [⟨1, .count, 0, .count 0⟩, ⟨2, .count, 1, .count 1⟩] := by decide

/-- C136 is violated: an object is written into the range that was reserved for another one. -/
theorem C136_violated : ¬ C136_full := by
  intro h
  have := h exPlace [.call (.reserve 5 10), .signal, .request, .call (.reserve 7 30), .request, .reply] _ rfl
    ⟨1, .reserve 7 30, 0, .range 5 0 10 true⟩ (by decide)
  exact absurd this.1 (by decide)

example : (run exPlace .init [.call (.reserve 5 10), .signal, .request, .call (.reserve 7 30), .request, .reply]).map (fun s => (s.log, s.mon.table)) =
    some ([⟨1, .reserve 7 30, 0, .range 5 0 10 true⟩], [(5, 0, 10), (7, 10, 30)]) := by decide

/-- C136 is violated: after a signal between a request and its reply the end of the program does not receive `SHUTDOWN` and raises, in every
history without `wait`. -/
theorem C136_shutdown_violated (place : List (Nat × Nat × Nat) → Nat → Nat) (pre post : List Act) (s : State)
    (hw : ∀ ids num, .call (.wait ids num) ∉ pre) (hsh : .call .shutdown ∉ pre) (hsig : .signal ∈ pre) (hpost : ∀ r, .call r ∉ post)
    (h : run place .init (pre ++ .call .shutdown :: post ++ [.reply]) = some s) :
    ∃ u e, s.log = u ++ [e] ∧ e.request = .shutdown ∧ e.reply ≠ .shutdown := by
  obtain ⟨u, e, hu, hlog, h1, h2, h3, r, h4, h5⟩ := C136_exactly_partial place (pre ++ .call .shutdown :: post) s (fun ids num hm => by
    rcases List.mem_append.1 hm with hm | hm
    · exact hw ids num hm
    · rcases List.mem_cons.1 hm with hm | hm
      · simp at hm
      · exact hpost _ hm) h
  have hp : calls post = [] := by
    refine List.filterMap_eq_nil_iff.2 fun a ha => ?_
    cases a with
    | call r => exact absurd ha (hpost r)
    | _ => rfl
  have hc : calls (pre ++ .call .shutdown :: post) = calls pre ++ [.shutdown] := by
    rw [calls_append]
    show calls pre ++ (.shutdown :: calls post) = _
    rw [hp]
  rw [hc] at h1 h2 h4
  simp only [List.length_append, List.length_singleton, Nat.add_right_cancel_iff] at h1
  rw [h1] at h2 h3
  simp only [List.getElem?_concat_length, Option.some.injEq] at h2
  have hpos : 0 < (pre ++ .call .shutdown :: post).count Act.signal := List.count_pos_iff.2 (List.mem_append_left _ hsig)
  rw [List.getElem?_append_left (by omega)] at h4
  refine ⟨u.log, e, hlog, h2.symm, fun e' => ?_⟩
  rw [e'] at h5
  have hr : r = .shutdown := by cases r <;> first | rfl | exact h5.elim
  subst hr
  have := List.mem_of_getElem? h4
  replace this := List.mem_filterMap.1 this
  obtain ⟨a, ha, hr⟩ := this
  cases a with
  | call r' => simp only [requestOf, Option.some.injEq] at hr; subst hr; exact hsh ha
  | _ => simp [requestOf] at hr

example : (run exPlace .init [.call .count, .signal, .request, .call .shutdown, .request, .reply]).map (·.log) =
    some [⟨1, .shutdown, 0, .count 0⟩] := by decide

/-- C136 is violated for `wait`: the monitor keeps what was ready for an interrupted `wait`, so that a later one whose tasks have all finished
never returns. -/
theorem C136_wait_forever_violated (place : List (Nat × Nat × Nat) → Nat → Nat) (post : List Act) (s : State) (hp : .signal ∉ post)
    (h : run place .init ([.call (.wait [1, 2] 2), .request, .report [some 1], .signal, .call (.wait [3] 1), .request, .report [some 3]] ++ post) =
      some s) : s.call = some (1, .wait [3] 1) ∧ s.log = [] := by
  rw [run_append, Option.bind_eq_some_iff] at h
  obtain ⟨t, ht, h⟩ := h
  cases ht
  have := stuck_run post (c := (1, .wait [3] 1)) ⟨rfl, rfl, rfl, rfl⟩ hp h
  exact ⟨this.1.call, this.2⟩

-- with another number of tasks the later `wait` returns references of the interrupted one
example : (run exPlace .init [.call (.wait [1, 2] 2), .request, .report [some 1], .signal, .call (.wait [3, 4] 2), .request, .report [some 3],
    .reply]).map (·.log) = some [⟨1, .wait [3, 4] 2, 1, .partition [1, 3] [4]⟩] := by decide

end Verif.Props
