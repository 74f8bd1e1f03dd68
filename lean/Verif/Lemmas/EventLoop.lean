import Verif.Model.EventLoop

/-! Invariants of the event loop of a worker. -/
namespace Verif.EventLoop

/-! ## Order of regular methods -/

/-- Conditions on the calls of a program. -/
structure Calls (calls : List Call) : Prop where
  ids : calls.Pairwise fun a b => a.id < b.id
  before : ∀ a ∈ calls, ∀ b ∈ calls, a.id ≤ b.id → b.out ∉ a.needs

/-- Calls with the same number are the same. -/
theorem Calls.inj {calls : List Call} (h : calls.Pairwise fun a b => a.id < b.id) {a b : Call} (ha : a ∈ calls) (hb : b ∈ calls)
    (he : a.id = b.id) : a = b := by
  induction calls with
  | nil => simp at ha
  | cons c cs ih =>
    obtain ⟨h1, h2⟩ := List.pairwise_cons.1 h
    rcases List.mem_cons.1 ha with ha' | ha' <;> rcases List.mem_cons.1 hb with hb' | hb'
    · rw [ha', hb']
    · have := h1 b hb'; rw [ha'] at he; omega
    · have := h1 a ha'; rw [hb'] at he; omega
    · exact ih h2 ha' hb'

/-- Different calls have different results. -/
theorem Calls.out_ne {calls : List Call} (h : calls.Pairwise fun a b => a.out ≠ b.out) {a b : Call} (ha : a ∈ calls) (hb : b ∈ calls)
    (hne : a ≠ b) : a.out ≠ b.out := by
  induction calls with
  | nil => simp at ha
  | cons c cs ih =>
    obtain ⟨h1, h2⟩ := List.pairwise_cons.1 h
    rcases List.mem_cons.1 ha with ha' | ha' <;> rcases List.mem_cons.1 hb with hb' | hb'
    · exact absurd (ha'.trans hb'.symm) hne
    · rw [ha']; exact h1 b hb'
    · rw [hb']; exact (h1 a ha').symm
    · exact ih h2 ha' hb'

/-- Available calls. -/
theorem available_iff (s : Loop) (c : Call) : s.available c = true ↔ ∀ x ∈ c.needs, x ∈ s.store := by
  simp [Loop.available]

/-- Earlier calls with fewer references ran first. -/
def Ordered (calls : List Call) (log : List (Nat × Nat)) : Prop :=
  ∀ a ∈ calls, ∀ b ∈ calls, a.id < b.id → (∀ x ∈ a.needs, x ∈ b.needs) → (b.id, 0) ∈ log →
    List.Sublist [(a.id, 0), (b.id, 0)] log

/-- A call runs: everything earlier with fewer references has run. -/
theorem Ordered.run {calls : List Call} {log : List (Nat × Nat)} (hc : Calls calls) (h : Ordered calls log) {c : Call}
    (hm : c ∈ calls)
    (hb : ∀ a ∈ calls, a.id < c.id → (∀ x ∈ a.needs, x ∈ c.needs) → (a.id, 0) ∈ log) : Ordered calls (log ++ [(c.id, 0)]) := by
  intro a ha b hbm hlt hn hin
  rcases List.mem_append.1 hin with hin | hin
  · exact (h a ha b hbm hlt hn hin).trans (List.sublist_append_left _ _)
  · have he : b.id = c.id := by simpa using hin
    obtain rfl := Calls.inj hc.ids hbm hm he
    have := hb a ha hlt hn
    exact (List.singleton_sublist.2 this).append (List.Sublist.refl [(b.id, 0)])

/-- The state between two requests when all methods are regular; `kept` are the waiting calls known to be unavailable, `rest` the
other waiting calls. -/
structure Regular (calls kept rest : List Call) (s : Loop) : Prop where
  ready : s.ready = []
  sleeping : s.sleeping = []
  sub : (kept ++ rest).Sublist calls
  all : ∀ c ∈ calls, c ∈ kept ++ rest ∨ (c.id, 0) ∈ s.log
  waits : ∀ c ∈ kept, s.available c = false
  ordered : Ordered calls s.log
  logged : ∀ e ∈ s.log, e.1 ∈ calls.map (·.id)

/-- A pass over the waiting calls. -/
theorem Regular.checkList {calls : List Call} (hc : Calls calls) (hreg : ∀ c ∈ calls, c.coroutine = false) :
    ∀ (rest kept : List Call) (s : Loop), Regular calls kept rest s →
      Regular calls (kept ++ (s.checkList rest).2) [] (s.checkList rest).1 := by
  intro rest
  induction rest with
  | nil => intro kept s h; simpa [Loop.checkList] using h
  | cons c rest ih =>
    intro kept s h
    have hm : c ∈ calls := h.sub.subset (by simp)
    have hpw := hc.ids.sublist h.sub
    rw [List.pairwise_append] at hpw
    obtain ⟨-, hp2, hp3⟩ := hpw
    obtain ⟨hp4, -⟩ := List.pairwise_cons.1 hp2
    by_cases ha : s.available c = true
    · have e : s.checkList (c :: rest) = (s.exec c).checkList rest := by
        rw [Loop.checkList, if_pos ha]
      rw [e]
      refine ih kept _ ?_
      have hex : s.exec c = { s with log := s.log ++ [(c.id, 0)], store := c.out :: s.store } := by
        rw [Loop.exec, if_neg (by rw [hreg c hm]; simp)]
      rw [hex]
      refine ⟨h.ready, h.sleeping, ?_, ?_, ?_, ?_, ?_⟩
      · exact ((List.Sublist.refl kept).append (List.sublist_cons_self c rest)).trans h.sub
      · intro d hd
        rcases h.all d hd with hd | hd
        · rcases List.mem_append.1 hd with hd | hd
          · exact .inl (List.mem_append_left _ hd)
          · rcases List.mem_cons.1 hd with rfl | hd
            · exact .inr (by simp)
            · exact .inl (List.mem_append_right _ hd)
        · exact .inr (List.mem_append_left _ hd)
      · intro k hk
        have hk0 := h.waits k hk
        rw [← Bool.not_eq_true, available_iff] at hk0 ⊢
        intro hall
        refine hk0 fun x hx => ?_
        rcases List.mem_cons.1 (hall x hx) with rfl | hx'
        · have := hp3 k hk c (by simp)
          exact absurd hx (hc.before k (h.sub.subset (List.mem_append_left _ hk)) c hm (by omega))
        · exact hx'
      · refine h.ordered.run hc hm fun a ham hlt hn => ?_
        rcases h.all a ham with hd | hd
        · rcases List.mem_append.1 hd with hd | hd
          · have hk0 := h.waits a hd
            rw [← Bool.not_eq_true, available_iff] at hk0
            exact absurd (fun x hx => (available_iff s c).1 ha x (hn x hx)) hk0
          · rcases List.mem_cons.1 hd with rfl | hd
            · omega
            · have := hp4 a hd; omega
        · exact hd
      · intro e he
        rcases List.mem_append.1 he with he | he
        · exact h.logged e he
        · simp at he; subst he; exact List.mem_map.2 ⟨c, hm, rfl⟩
    · have e : s.checkList (c :: rest) = ((s.checkList rest).1, c :: (s.checkList rest).2) := by
        rw [Loop.checkList, if_neg ha]
      rw [e]
      have := ih (kept ++ [c]) s ⟨h.ready, h.sleeping, by simpa using h.sub, by simpa using h.all, by
        intro k hk
        rcases List.mem_append.1 hk with hk | hk
        · exact h.waits k hk
        · simp at hk; subst hk; simpa using ha, h.ordered, h.logged⟩
      simpa using this

/-- `check_pending_actor_tasks`. -/
theorem Regular.check {calls : List Call} (hc : Calls calls) (hreg : ∀ c ∈ calls, c.coroutine = false) {s : Loop}
    (h : Regular calls [] s.pending s) : Regular calls s.check.pending [] s.check := by
  have := Regular.checkList hc hreg s.pending [] s h
  simp only [List.nil_append] at this
  exact ⟨this.ready, this.sleeping, by simpa [Loop.check] using this.sub, by simpa [Loop.check] using this.all, this.waits,
    this.ordered, this.logged⟩

/-! ## Parts of coroutines -/

/-- Number of parts of a call. -/
def partsOf (c : Call) : Nat := if c.coroutine then c.awaits + 1 else 1

/-- The parts of one call that have run, in this order. -/
def partsRun (log : List (Nat × Nat)) (id : Nat) : List Nat := (log.filter (·.1 == id)).map (·.2)

/-- The calls that have not ended, with the number of their next part, and what has run. -/
structure Live (calls : List Call) (init : List Nat) (live : List (Call × Nat)) (log : List (Nat × Nat)) (store : List Nat) : Prop where
  now : ∀ r ∈ live, r.1 ∈ calls ∧ partsRun log r.1.id = List.range r.2 ∧ r.2 < partsOf r.1 ∧ r.1.out ∉ store
  done : ∀ c ∈ calls, c.id ∉ live.map (·.1.id) → partsRun log c.id = List.range (partsOf c) ∧ c.out ∈ store
  nodup : (live.map (·.1.id)).Nodup
  known : ∀ e ∈ log, e.1 ∈ calls.map (·.id)
  values : ∀ x ∈ store, x ∈ init ∨ x ∈ calls.map (·.out)

/-- Only the members matter. -/
theorem Live.perm {calls : List Call} {init : List Nat} {live live' : List (Call × Nat)} {log : List (Nat × Nat)} {store : List Nat}
    (h : Live calls init live log store) (hp : live.Perm live') : Live calls init live' log store := by
  have hp' := hp.map (·.1.id)
  exact ⟨fun r hr => h.now r (hp.mem_iff.2 hr), fun c hc hn => h.done c hc fun hm => hn (hp'.mem_iff.1 hm),
    hp'.nodup_iff.1 h.nodup, h.known, h.values⟩

/-- One more part of a call. -/
theorem partsRun_snoc (log : List (Nat × Nat)) (i k id : Nat) :
    partsRun (log ++ [(i, k)]) id = partsRun log id ++ (if i = id then [k] else []) := by
  by_cases h : i = id <;> simp [partsRun, h]

/-- The last part of a call runs and its result is stored. -/
theorem Live.finish {calls : List Call} {init : List Nat} {live : List (Call × Nat)} {log : List (Nat × Nat)} {store : List Nat}
    {c : Call} {k : Nat} (hids : calls.Pairwise fun a b => a.id < b.id) (houts : calls.Pairwise fun a b => a.out ≠ b.out)
    (h : Live calls init ((c, k) :: live) log store) (hk : k + 1 = partsOf c) :
    Live calls init live (log ++ [(c.id, k)]) (c.out :: store) := by
  obtain ⟨hm, hr, -, ho⟩ := h.now (c, k) (by simp)
  obtain ⟨hn1, hn2⟩ := List.nodup_cons.1 (by simpa using h.nodup : (c.id :: live.map (·.1.id)).Nodup)
  have outsInj : ∀ a ∈ calls, a ≠ c → a.out ≠ c.out := fun a ha hne => Calls.out_ne houts ha hm hne
  refine ⟨fun r hrm => ?_, fun d hd hdn => ?_, hn2, ?_, ?_⟩
  · obtain ⟨h1, h2, h3, h4⟩ := h.now r (List.mem_cons_of_mem _ hrm)
    have hne : r.1.id ≠ c.id := fun he => hn1 (List.mem_map.2 ⟨r, hrm, he⟩)
    refine ⟨h1, ?_, h3, ?_⟩
    · rw [partsRun_snoc, if_neg (Ne.symm hne), List.append_nil]; exact h2
    · rw [List.mem_cons, not_or]
      exact ⟨outsInj r.1 h1 (fun e => hne (by rw [e])), h4⟩
  · by_cases he : d.id = c.id
    · obtain rfl := Calls.inj hids hd hm he
      refine ⟨?_, by simp⟩
      rw [partsRun_snoc, if_pos rfl, hr, ← hk, List.range_succ]
    · obtain ⟨h1, h2⟩ := h.done d hd (by simp [he]; simpa using hdn)
      refine ⟨?_, List.mem_cons_of_mem _ h2⟩
      rw [partsRun_snoc, if_neg (Ne.symm he), List.append_nil]; exact h1
  · intro e hem
    rcases List.mem_append.1 hem with hem | hem
    · exact h.known e hem
    · simp at hem; subst hem; exact List.mem_map.2 ⟨c, hm, rfl⟩
  · intro x hx
    rcases List.mem_cons.1 hx with rfl | hx
    · exact .inr (List.mem_map.2 ⟨c, hm, rfl⟩)
    · exact h.values x hx

/-- A part of a call runs that is not the last. -/
theorem Live.next {calls : List Call} {init : List Nat} {live : List (Call × Nat)} {log : List (Nat × Nat)} {store : List Nat}
    {c : Call} {k : Nat} (h : Live calls init ((c, k) :: live) log store) (hk : k + 1 < partsOf c) :
    Live calls init ((c, k + 1) :: live) (log ++ [(c.id, k)]) store := by
  obtain ⟨hm, hr, -, ho⟩ := h.now (c, k) (by simp)
  obtain ⟨hn1, hn2⟩ := List.nodup_cons.1 (by simpa using h.nodup : (c.id :: live.map (·.1.id)).Nodup)
  refine ⟨fun r hrm => ?_, fun d hd hdn => ?_, by simpa using h.nodup, ?_, h.values⟩
  · rcases List.mem_cons.1 hrm with rfl | hrm
    · refine ⟨hm, ?_, hk, ho⟩
      rw [partsRun_snoc, if_pos rfl, hr, List.range_succ]
    · obtain ⟨h1, h2, h3, h4⟩ := h.now r (List.mem_cons_of_mem _ hrm)
      have hne : r.1.id ≠ c.id := fun he => hn1 (List.mem_map.2 ⟨r, hrm, he⟩)
      refine ⟨h1, ?_, h3, h4⟩
      rw [partsRun_snoc, if_neg (Ne.symm hne), List.append_nil]; exact h2
  · have he : d.id ≠ c.id := fun he => hdn (by simp [he])
    obtain ⟨h1, h2⟩ := h.done d hd (by simpa using hdn)
    refine ⟨?_, h2⟩
    rw [partsRun_snoc, if_neg (Ne.symm he), List.append_nil]; exact h1
  · intro e hem
    rcases List.mem_append.1 hem with hem | hem
    · exact h.known e hem
    · simp at hem; subst hem; exact List.mem_map.2 ⟨c, hm, rfl⟩

/-- A call arrives. -/
theorem Live.add {calls : List Call} {init : List Nat} {live : List (Call × Nat)} {log : List (Nat × Nat)} {store : List Nat}
    {c : Call} (hids : (calls ++ [c]).Pairwise fun a b => a.id < b.id) (houts : (calls ++ [c]).Pairwise fun a b => a.out ≠ b.out)
    (hinit : c.out ∉ init) (h : Live calls init live log store) : Live (calls ++ [c]) init ((c, 0) :: live) log store := by
  rw [List.pairwise_append] at hids houts
  have hid : ∀ d ∈ calls, d.id ≠ c.id := fun d hd => by
    have := hids.2.2 d hd c (by simp); omega
  have hout : ∀ d ∈ calls, d.out ≠ c.out := fun d hd => houts.2.2 d hd c (by simp)
  refine ⟨fun r hrm => ?_, fun d hd hdn => ?_, ?_, ?_, ?_⟩
  · rcases List.mem_cons.1 hrm with rfl | hrm
    · refine ⟨by simp, ?_, by simp only [partsOf]; split <;> omega, fun hx => ?_⟩
      · simp only [partsRun, List.range_zero, List.map_eq_nil_iff, List.filter_eq_nil_iff]
        intro e he hc
        obtain ⟨d, hd, hde⟩ := List.mem_map.1 (h.known e he)
        exact hid d hd (hde.trans (by simpa using hc))
      · rcases h.values _ hx with hx | hx
        · exact hinit hx
        · obtain ⟨d, hd, hde⟩ := List.mem_map.1 hx
          exact hout d hd hde
    · obtain ⟨h1, h2⟩ := h.now r hrm
      exact ⟨List.mem_append_left _ h1, h2⟩
  · have hne : d.id ≠ c.id := fun he => hdn (by simp [he])
    rcases List.mem_append.1 hd with hd | hd
    · refine h.done d hd fun hm => hdn ?_
      rw [List.map_cons]
      exact List.mem_cons_of_mem _ hm
    · simp at hd; subst hd; exact absurd rfl hne
  · rw [List.map_cons, List.nodup_cons]
    refine ⟨fun hm => ?_, h.nodup⟩
    obtain ⟨r, hr, hre⟩ := List.mem_map.1 hm
    exact hid r.1 (h.now r hr).1 hre
  · intro e he
    have := h.known e he
    rw [List.map_append]
    exact List.mem_append_left _ this
  · intro x hx
    rcases h.values x hx with hx | hx
    · exact .inl hx
    · rw [List.map_append]
      exact .inr (List.mem_append_left _ hx)

/-- A value arrives. -/
theorem Live.data {calls : List Call} {init : List Nat} {live : List (Call × Nat)} {log : List (Nat × Nat)} {store : List Nat}
    {x : Nat} (h : Live calls init live log store) (hx : x ∈ init) (hn : ∀ c ∈ calls, c.out ≠ x) :
    Live calls init live log (x :: store) := by
  refine ⟨fun r hr => ?_, fun c hc hm => ⟨(h.done c hc hm).1, List.mem_cons_of_mem _ (h.done c hc hm).2⟩, h.nodup, h.known, ?_⟩
  · obtain ⟨h1, h2, h3, h4⟩ := h.now r hr
    refine ⟨h1, h2, h3, ?_⟩
    rw [List.mem_cons, not_or]
    exact ⟨hn r.1 h1, h4⟩
  · intro y hy
    rcases List.mem_cons.1 hy with rfl | hy
    · exact .inl hx
    · exact h.values y hy

/-- The calls that have not ended: waiting, ready and sleeping ones. -/
def liveOf (waiting : List Call) (s : Loop) : List (Call × Nat) := waiting.map (·, 0) ++ (s.ready ++ s.sleeping)

/-- A call is executed. -/
theorem Live.exec {calls : List Call} {init : List Nat} {waiting : List Call} {s : Loop} {c : Call}
    (hids : calls.Pairwise fun a b => a.id < b.id) (houts : calls.Pairwise fun a b => a.out ≠ b.out)
    (h : Live calls init ((c, 0) :: liveOf waiting s) s.log s.store) :
    Live calls init (liveOf waiting (s.exec c)) (s.exec c).log (s.exec c).store := by
  by_cases hc : c.coroutine = true
  · have e : s.exec c = { s with ready := s.ready ++ [(c, 0)] } := by rw [Loop.exec, if_pos hc]
    rw [e]
    refine h.perm ?_
    rw [List.perm_iff_count]
    intro r
    simp only [liveOf, List.count_cons, List.count_append, List.count_nil]
    omega
  · have e : s.exec c = { s with log := s.log ++ [(c.id, 0)], store := c.out :: s.store } := by rw [Loop.exec, if_neg hc]
    rw [e]
    exact h.finish hids houts (by simp [partsOf, hc])

/-- A pass over the waiting calls. -/
theorem Live.checkList {calls : List Call} {init : List Nat} (hids : calls.Pairwise fun a b => a.id < b.id)
    (houts : calls.Pairwise fun a b => a.out ≠ b.out) : ∀ (rest kept : List Call) (s : Loop),
    Live calls init (liveOf (kept ++ rest) s) s.log s.store →
      Live calls init (liveOf (kept ++ (s.checkList rest).2) (s.checkList rest).1) (s.checkList rest).1.log
        (s.checkList rest).1.store := by
  intro rest
  induction rest with
  | nil => intro kept s h; simpa [Loop.checkList] using h
  | cons c rest ih =>
    intro kept s h
    by_cases ha : s.available c = true
    · have e : s.checkList (c :: rest) = (s.exec c).checkList rest := by
        rw [Loop.checkList, if_pos ha]
      rw [e]
      refine ih kept _ (Live.exec hids houts (h.perm ?_))
      rw [List.perm_iff_count]
      intro r
      simp only [liveOf, List.map_append, List.map_cons, List.count_cons, List.count_append]
      omega
    · have e : s.checkList (c :: rest) = ((s.checkList rest).1, c :: (s.checkList rest).2) := by
        rw [Loop.checkList, if_neg ha]
      rw [e]
      simpa using ih (kept ++ [c]) s (by simpa using h)

/-- `check_pending_actor_tasks`. -/
theorem Live.check {calls : List Call} {init : List Nat} (hids : calls.Pairwise fun a b => a.id < b.id)
    (houts : calls.Pairwise fun a b => a.out ≠ b.out) {s : Loop} (h : Live calls init (liveOf s.pending s) s.log s.store) :
    Live calls init (liveOf s.check.pending s.check) s.check.log s.check.store := by
  have := Live.checkList hids houts s.pending [] s (by simpa using h)
  simpa [Loop.check, liveOf] using this

end Verif.EventLoop
