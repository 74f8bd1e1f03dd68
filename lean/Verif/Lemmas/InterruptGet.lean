import Verif.Model.InterruptGet

/-! Invariant of `get` with signals that arrive while it waits. -/
namespace Verif.InterruptGet

/-- A call under way: `count` of the needed references have arrived, all others of the call are in the store. -/
structure CallOk (store : Nat → Option (List Bytes)) (ids need : List Nat) (count : Nat) : Prop where
  nodup : need.Nodup
  all : ∀ i ∈ ids, i ∈ need ∨ store i ≠ none
  arrived : (need.filter fun i => (store i).isSome).length = count
  lt : count < need.length

/-- The buffers that belong to information packages. -/
def owed (value : Nat → List Bytes) (l : List (Nat × List Nat)) : List Bytes := l.flatMap fun x => value x.1

/-- What holds of the root and the buffers. -/
def RootOk (value : Nat → List Bytes) (owner : Nat → Nat) (s : State) : Prop :=
  match s.root with
  | .idle => ∀ o, s.buffers o = owed value (s.infos o)
  | .waiting ids need c => (∀ o, s.buffers o = owed value (s.infos o)) ∧ CallOk s.store ids need c
  | .receiving ids need c src id lens parts =>
    CallOk s.store ids need c ∧ (∀ o, o ≠ src → s.buffers o = owed value (s.infos o)) ∧ owner id = src ∧ id ∈ s.sent ∧
    s.store id = none ∧ id ∉ (s.infos src).map (·.1) ∧
    ∃ rem, value id = parts ++ rem ∧ lens = rem.map List.length ∧ rem ≠ [] ∧ s.buffers src = rem ++ owed value (s.infos src)

/-- Invariant as long as no signal arrives in the middle of an object. -/
structure Inv (value : Nat → List Bytes) (owner : Nat → Nat) (s : State) : Prop where
  stored : ∀ i v, s.store i = some v → v = value i ∧ i ∈ s.sent
  asked : ∀ i ∈ s.sent, i ∈ s.asked
  info : ∀ o x, x ∈ s.infos o → x.2 = (value x.1).map List.length ∧ owner x.1 = o ∧ x.1 ∈ s.sent ∧ s.store x.1 = none
  nodup : ∀ o, ((s.infos o).map (·.1)).Nodup
  root : RootOk value owner s
  log : ∀ ids vals, Outcome.returned ids vals ∈ s.log → vals = ids.map fun i => some (value i)

theorem upd_eq {α : Type} (f : Nat → α) (k : Nat) (v : α) : upd f k v k = v := by simp [upd]
theorem upd_ne {α : Type} {f : Nat → α} {k x : Nat} {v : α} (h : x ≠ k) : upd f k v x = f x := by simp [upd, h]

theorem count_upd {store : Nat → Option (List Bytes)} {id : Nat} {p : List Bytes} (h0 : store id = none) : ∀ (need : List Nat), need.Nodup →
    id ∈ need → (need.filter fun i => (upd store id (some p) i).isSome).length = (need.filter fun i => (store i).isSome).length + 1
  | [], _, h => by simp at h
  | a :: l, hn, h => by
    have hn' := List.nodup_cons.1 hn
    by_cases ha : a = id
    · subst ha
      have : l.filter (fun i => (upd store a (some p) i).isSome) = l.filter fun i => (store i).isSome := by
        apply List.filter_congr
        intro x hx
        have hxa : x ≠ a := fun e => hn'.1 (by rw [← e]; exact hx)
        rw [upd_ne hxa]
      rw [List.filter_cons_of_pos (by simp [upd_eq]), List.filter_cons_of_neg (by simp [h0]), List.length_cons, this]
    · have ih := count_upd (p := p) h0 l hn'.2 (by simpa [Ne.symm ha] using h)
      rw [List.filter_cons, List.filter_cons, upd_ne ha]
      split <;> simp [ih]

theorem count_full {store : Nat → Option (List Bytes)} : ∀ {need : List Nat},
    need.length ≤ (need.filter fun i => (store i).isSome).length → ∀ i ∈ need, store i ≠ none
  | [], _, i, hi => by simp at hi
  | a :: l, h, i, hi => by
    rw [List.filter_cons] at h
    split at h
    · rename_i ha
      rcases List.mem_cons.1 hi with rfl | hi
      · intro e; rw [e] at ha; simp at ha
      · exact count_full (by simpa using h) i hi
    · have := List.length_filter_le (fun i => (store i).isSome) l
      simp only [List.length_cons] at h
      omega

theorem count_start (store : Nat → Option (List Bytes)) (ids : List Nat) :
    (((ids.filter fun i => (store i).isNone).filter fun i => (store i).isSome)).length = 0 := by
  rw [List.length_eq_zero_iff, List.filter_filter, List.filter_eq_nil_iff]
  intro a _
  cases store a <;> simp

variable {value : Nat → List Bytes} {owner : Nat → Nat}

theorem inv_init : Inv value owner .init :=
  ⟨by simp [State.init], by simp [State.init], by simp [State.init], by simp [State.init], by simp [RootOk, State.init, owed], by simp [State.init]⟩

theorem owed_append (l : List (Nat × List Nat)) (x : Nat × List Nat) : owed value (l ++ [x]) = owed value l ++ value x.1 := by
  simp [owed]

/-- Objects that are not received keep the counts. -/
theorem CallOk.of_eq {store store' : Nat → Option (List Bytes)} {ids need : List Nat} {c : Nat} (h : CallOk store ids need c)
    (e : store' = store) : CallOk store' ids need c := e ▸ h

theorem inv_get {s s' : State} {ids : List Nat} (hd : ids.Nodup) (h : Inv value owner s) (hs : step value owner s (.get ids) = some s') :
    Inv value owner s' := by
  simp only [step] at hs
  split at hs
  · rename_i hroot
    have hr : ∀ o, s.buffers o = owed value (s.infos o) := by have := h.root; unfold RootOk at this; rw [hroot] at this; exact this
    split at hs
    · rename_i hneed
      cases hs
      refine ⟨h.stored, h.asked, h.info, h.nodup, ?_, fun ids' v hm => ?_⟩
      · simpa [RootOk, hroot] using hr
      · rcases List.mem_append.1 hm with hm | hm
        · exact h.log _ v hm
        · simp only [List.mem_singleton, Outcome.returned.injEq] at hm
          obtain ⟨h1, h2⟩ := hm
          subst h1 h2
          apply List.map_congr_left
          intro i hi
          have : ¬ (s.store i).isNone = true := fun e => by
            have : i ∈ ([] : List Nat) := hneed ▸ List.mem_filter.2 ⟨hi, e⟩
            simp at this
          cases hv : s.store i with
          | none => simp [hv] at this
          | some v => rw [(h.stored i v hv).1]
    · rename_i hneed
      cases hs
      refine ⟨h.stored, fun i hi => List.mem_append_left _ (h.asked i hi), h.info, h.nodup, ?_, h.log⟩
      refine ⟨hr, hd.filter _, fun i hi => ?_, count_start _ _, List.length_pos_iff.2 hneed⟩
      cases hv : s.store i with
      | none => exact .inl (List.mem_filter.2 ⟨hi, by simp [hv]⟩)
      | some v => exact .inr (by simp)
  · cases hs

theorem inv_answer {s s' : State} {id : Nat} (h : Inv value owner s) (hs : step value owner s (.answer id) = some s') :
    Inv value owner s' := by
  simp only [step] at hs
  split at hs
  · rename_i hid
    cases hs
    have hnew : s.store id = none := by
      cases hv : s.store id with
      | none => rfl
      | some v => exact absurd (h.stored id v hv).2 hid.2
    have hbuf : ∀ o, s.buffers o = owed value (s.infos o) →
        upd s.buffers (owner id) (s.buffers (owner id) ++ value id) o =
          owed value (upd s.infos (owner id) (s.infos (owner id) ++ [(id, (value id).map List.length)]) o) := by
      intro o ho
      by_cases e : o = owner id
      · subst e; rw [upd_eq, upd_eq, owed_append, ho]
      · rw [upd_ne e, upd_ne e, ho]
    refine ⟨fun i v hv => ⟨(h.stored i v hv).1, List.mem_append_left _ (h.stored i v hv).2⟩, fun i hi => ?_, fun o x hx => ?_, fun o => ?_,
      ?_, h.log⟩
    · rcases List.mem_append.1 hi with hi | hi
      · exact h.asked i hi
      · simp only [List.mem_singleton] at hi; subst hi; exact hid.1
    · by_cases e : o = owner id
      · subst e
        simp only [upd_eq] at hx
        rcases List.mem_append.1 hx with hx | hx
        · have := h.info _ x hx
          exact ⟨this.1, this.2.1, List.mem_append_left _ this.2.2.1, this.2.2.2⟩
        · simp only [List.mem_singleton] at hx
          subst hx
          exact ⟨rfl, rfl, by simp, hnew⟩
      · simp only [upd_ne e] at hx
        have := h.info _ x hx
        exact ⟨this.1, this.2.1, List.mem_append_left _ this.2.2.1, this.2.2.2⟩
    · by_cases e : o = owner id
      · subst e
        simp only [upd_eq, List.map_append, List.map_cons, List.map_nil]
        refine List.nodup_append.2 ⟨h.nodup _, by simp, fun a ha b hb e => ?_⟩
        simp only [List.mem_singleton] at hb
        subst hb
        replace ha := List.mem_map.1 ha
        obtain ⟨x, hx, rfl⟩ := ha
        exact hid.2 (e ▸ (h.info _ x hx).2.2.1)
      · simp only [upd_ne e]; exact h.nodup o
    · have hr := h.root
      unfold RootOk at hr ⊢
      cases hroot : s.root with
      | idle => rw [hroot] at hr; exact fun o => hbuf o (hr o)
      | waiting ids need c => rw [hroot] at hr; exact ⟨fun o => hbuf o (hr.1 o), hr.2⟩
      | receiving ids need c src i lens parts =>
        rw [hroot] at hr
        obtain ⟨h1, h2, h3, h4, h5, h6, rem, h7, h8, h9, h10⟩ := hr
        refine ⟨h1, fun o ho => hbuf o (h2 o ho), h3, List.mem_append_left _ h4, h5, ?_, rem, h7, h8, h9, ?_⟩
        · by_cases e : src = owner id
          · subst e
            simp only [upd_eq, List.map_append, List.map_cons, List.map_nil, List.mem_append, List.mem_singleton, not_or]
            exact ⟨h6, fun e => hid.2 (e ▸ h4)⟩
          · simp only [upd_ne e]; exact h6
        · by_cases e : src = owner id
          · subst e
            simp only [upd_eq, owed_append, h10, List.append_assoc]
          · simp only [upd_ne e]; exact h10
  · cases hs

theorem inv_info {s s' : State} {src : Nat} (hv : ∀ i, value i ≠ []) (h : Inv value owner s)
    (hs : step value owner s (.info src) = some s') : Inv value owner s' := by
  simp only [step] at hs
  split at hs
  · rename_i ids need c id lens rest hroot hinfo
    cases hs
    have hr : (∀ o, s.buffers o = owed value (s.infos o)) ∧ CallOk s.store ids need c := by
      have := h.root; unfold RootOk at this; rw [hroot] at this; exact this
    have hx := h.info src (id, lens) (by rw [hinfo]; simp)
    have hnd := h.nodup src
    rw [hinfo, List.map_cons, List.nodup_cons] at hnd
    refine ⟨h.stored, h.asked, fun o x hxo => ?_, fun o => ?_, ?_, h.log⟩
    · by_cases e : o = src
      · subst e; simp only [upd_eq] at hxo; exact h.info _ x (by rw [hinfo]; simp [hxo])
      · simp only [upd_ne e] at hxo; exact h.info _ x hxo
    · by_cases e : o = src
      · subst e; simp only [upd_eq]; exact hnd.2
      · simp only [upd_ne e]; exact h.nodup o
    · refine ⟨hr.2, fun o ho => ?_, hx.2.1, hx.2.2.1, hx.2.2.2, ?_, value id, rfl, hx.1, hv id, ?_⟩
      · simp only [upd_ne ho]; exact hr.1 o
      · simp only [upd_eq]; exact hnd.1
      · simp only [upd_eq]; rw [hr.1 src, hinfo]; simp [owed]
  · cases hs

theorem inv_complete {s : State} {ids need : List Nat} {c id : Nat} {parts : List Bytes} (h1 : CallOk s.store ids need c)
    (hst : ∀ i v, s.store i = some v → v = value i ∧ i ∈ s.sent) (has : ∀ i ∈ s.sent, i ∈ s.asked)
    (hinfo : ∀ o x, x ∈ s.infos o → x.2 = (value x.1).map List.length ∧ owner x.1 = o ∧ x.1 ∈ s.sent ∧ s.store x.1 = none)
    (hnd : ∀ o, ((s.infos o).map (·.1)).Nodup) (hbuf : ∀ o, s.buffers o = owed value (s.infos o))
    (hlog : ∀ ids vals, Outcome.returned ids vals ∈ s.log → vals = ids.map fun i => some (value i))
    (hsent : id ∈ s.sent) (hnone : s.store id = none) (hnot : id ∉ (s.infos (owner id)).map (·.1)) (hp : parts = value id) :
    Inv value owner (complete s ids need c id parts) := by
  have hst' : ∀ i v, upd s.store id (some parts) i = some v → v = value i ∧ i ∈ s.sent := by
    intro i v hv
    by_cases e : i = id
    · subst e; rw [upd_eq] at hv; cases hv; exact ⟨hp, hsent⟩
    · rw [upd_ne e] at hv; exact hst i v hv
  have hinfo' : ∀ o x, x ∈ s.infos o → x.2 = (value x.1).map List.length ∧ owner x.1 = o ∧ x.1 ∈ s.sent ∧
      upd s.store id (some parts) x.1 = none := by
    intro o x hx
    have := hinfo o x hx
    refine ⟨this.1, this.2.1, this.2.2.1, ?_⟩
    rw [upd_ne fun e => hnot ?_]
    · exact this.2.2.2
    · rw [← e, this.2.1]; exact List.mem_map.2 ⟨x, hx, rfl⟩
  unfold complete
  split
  · rename_i hneed
    have hcount := count_upd (p := parts) hnone need h1.nodup hneed
    rw [h1.arrived] at hcount
    split
    · rename_i hlt
      refine ⟨hst', has, hinfo', hnd, ⟨hbuf, h1.nodup, fun i hi => ?_, hcount, hlt⟩, hlog⟩
      rcases h1.all i hi with h | h
      · exact .inl h
      · right
        by_cases e : i = id
        · subst e; simp [upd_eq]
        · show upd s.store id (some parts) i ≠ none
          rw [upd_ne e]; exact h
    · rename_i hlt
      refine ⟨hst', has, hinfo', hnd, hbuf, fun ids' vals hm => ?_⟩
      rcases List.mem_append.1 hm with hm | hm
      · exact hlog _ _ hm
      · simp only [List.mem_singleton, Outcome.returned.injEq] at hm
        obtain ⟨rfl, rfl⟩ := hm
        apply List.map_congr_left
        intro i hi
        have hsome : upd s.store id (some parts) i ≠ none := by
          rcases h1.all i hi with h | h
          · exact count_full (by omega) i h
          · by_cases e : i = id
            · subst e; simp [upd_eq]
            · rw [upd_ne e]; exact h
        cases hv : upd s.store id (some parts) i with
        | none => exact absurd hv hsome
        | some v => rw [(hst' i v hv).1]
  · refine ⟨hst', has, hinfo', hnd, hbuf, fun ids' vals hm => ?_⟩
    rcases List.mem_append.1 hm with hm | hm
    · exact hlog _ _ hm
    · simp at hm

theorem inv_buffer {s s' : State} (h : Inv value owner s) (hs : step value owner s .buffer = some s') : Inv value owner s' := by
  simp only [step] at hs
  split at hs
  · rename_i ids need c src id n lens parts hroot
    have hr := h.root
    unfold RootOk at hr
    rw [hroot] at hr
    obtain ⟨h1, h2, h3, h4, h5, h6, rem, h7, h8, h9, h10⟩ := hr
    cases rem with
    | nil => exact absurd rfl h9
    | cons b rem =>
      simp only [List.map_cons, List.cons.injEq] at h8
      rw [h10, List.cons_append] at hs
      simp only [h8.1, Nat.lt_irrefl, if_false, Nat.sub_self, List.replicate_zero, List.append_nil] at hs
      split at hs
      · rename_i hl
        have hrem : rem = [] := by rw [hl] at h8; simpa using h8.2.symm
        subst hrem
        cases hs
        refine inv_complete h1 h.stored h.asked h.info h.nodup (fun o => ?_) h.log h4 h5 (h3 ▸ h6) h7.symm
        by_cases e : o = src
        · subst e; simp only [upd_eq]; rfl
        · simp only [upd_ne e]; exact h2 o e
      · rename_i hl
        cases hs
        refine ⟨h.stored, h.asked, h.info, h.nodup, ⟨h1, fun o ho => ?_, h3, h4, h5, h6, rem, ?_, h8.2, ?_, ?_⟩, h.log⟩
        · simp only [upd_ne ho]; exact h2 o ho
        · rw [h7]; simp
        · rintro rfl; exact hl (by simpa using h8.2)
        · simp only [upd_eq]
  · cases hs

theorem inv_signal {s s' : State} {ids need : List Nat} {c : Nat} (hw : s.root = .waiting ids need c) (h : Inv value owner s)
    (hs : step value owner s .signal = some s') : Inv value owner s' := by
  simp only [step, hw] at hs
  cases hs
  have hr := h.root
  unfold RootOk at hr
  rw [hw] at hr
  exact ⟨h.stored, h.asked, h.info, h.nodup, hr.1, h.log⟩

theorem run_append (as bs : List Act) (s : State) :
    run value owner s (as ++ bs) = (run value owner s as).bind fun t => run value owner t bs := by
  induction as generalizing s with
  | nil => rfl
  | cons a as ih =>
    simp only [List.cons_append, run]
    cases step value owner s a with
    | none => rfl
    | some t => exact ih t

theorem inv_run (hv : ∀ i, value i ≠ []) : ∀ (acts : List Act) {s s' : State}, Inv value owner s →
    (∀ ids, .get ids ∈ acts → ids.Nodup) →
    (∀ pre post u, acts = pre ++ .signal :: post → run value owner s pre = some u → ∃ ids need c, u.root = .waiting ids need c) →
    run value owner s acts = some s' → Inv value owner s'
  | [], s, s', hi, _, _, h => by cases h; exact hi
  | a :: as, s, s', hi, hd, hsig, h => by
    simp only [run, Option.bind_eq_some_iff] at h
    obtain ⟨t, ht, h⟩ := h
    have hit : Inv value owner t := by
      cases a with
      | get ids => exact inv_get (hd ids (by simp)) hi ht
      | answer id => exact inv_answer hi ht
      | info src => exact inv_info hv hi ht
      | buffer => exact inv_buffer hi ht
      | signal =>
        obtain ⟨ids, need, c, hw⟩ := hsig [] as s rfl rfl
        exact inv_signal hw hi ht
    refine inv_run hv as hit (fun ids hm => hd ids (by simp [hm])) (fun pre post u e hu => ?_) h
    refine hsig (a :: pre) post u (by rw [e]; rfl) ?_
    simp only [run, ht, Option.bind_some, hu]

end Verif.InterruptGet
