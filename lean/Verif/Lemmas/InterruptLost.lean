import Verif.Lemmas.InterruptGet

/-! Invariants of `get` with signals at any time; calls without replies of earlier calls. -/
namespace Verif.InterruptGet

variable {value : Nat → List Bytes} {owner : Nat → Nat}

/-- A call under way: `c` bounds what has arrived. -/
structure CallWeak (store : Nat → Option (List Bytes)) (ids need : List Nat) (c : Nat) : Prop where
  all : ∀ i ∈ ids, i ∈ need ∨ store i ≠ none
  arrived : c ≤ (need.filter fun i => (store i).isSome).length

/-- What holds of the root whatever was interrupted. -/
def RootWeak (s : State) : Prop :=
  match s.root with
  | .idle => True
  | .waiting ids need c => CallWeak s.store ids need c
  | .receiving ids need c _ id _ _ =>
    CallWeak s.store ids need c ∧ id ∈ s.sent ∧ s.store id = none ∧ ∀ o x, x ∈ s.infos o → x.1 ≠ id

/-- Invariant whatever was interrupted. -/
structure Weak (owner : Nat → Nat) (s : State) : Prop where
  stored : ∀ i, s.store i ≠ none → i ∈ s.sent
  info : ∀ o x, x ∈ s.infos o → x.1 ∈ s.sent ∧ s.store x.1 = none ∧ owner x.1 = o
  nodup : ∀ o, ((s.infos o).map (·.1)).Nodup
  root : RootWeak s
  log : ∀ ids vals, Outcome.returned ids vals ∈ s.log → ∀ i ∈ ids, s.store i ≠ none

theorem weak_init : Weak owner .init :=
  ⟨by simp [State.init], by simp [State.init], by simp [State.init], by simp [RootWeak, State.init], by simp [State.init]⟩

theorem count_upd_le {store : Nat → Option (List Bytes)} {id : Nat} {p : List Bytes} (h0 : store id = none) : ∀ (need : List Nat),
    (id ∈ need → (need.filter fun i => (store i).isSome).length + 1 ≤ (need.filter fun i => (upd store id (some p) i).isSome).length) ∧
    (need.filter fun i => (store i).isSome).length ≤ (need.filter fun i => (upd store id (some p) i).isSome).length
  | [] => by simp
  | a :: l => by
    have ih := count_upd_le (p := p) h0 l
    by_cases ha : a = id
    · subst ha
      rw [List.filter_cons_of_pos (l := l) (p := fun i => (upd store a (some p) i).isSome) (by simp [upd_eq]),
        List.filter_cons_of_neg (l := l) (by simp [h0]), List.length_cons]
      exact ⟨fun _ => by have := ih.2; omega, by have := ih.2; omega⟩
    · rw [List.filter_cons, List.filter_cons, upd_ne ha]
      have hm : id ∈ a :: l ↔ id ∈ l := by simp [Ne.symm ha]
      rw [hm]
      split
      · simp only [List.length_cons]
        exact ⟨fun h => by have := ih.1 h; omega, by have := ih.2; omega⟩
      · exact ih

theorem weak_complete {s : State} {ids need : List Nat} {c id : Nat} {parts : List Bytes} (h : CallWeak s.store ids need c)
    (hst : ∀ i, s.store i ≠ none → i ∈ s.sent)
    (hinfo : ∀ o x, x ∈ s.infos o → x.1 ∈ s.sent ∧ s.store x.1 = none ∧ owner x.1 = o)
    (hnd : ∀ o, ((s.infos o).map (·.1)).Nodup)
    (hlog : ∀ ids vals, Outcome.returned ids vals ∈ s.log → ∀ i ∈ ids, s.store i ≠ none)
    (hsent : id ∈ s.sent) (hnone : s.store id = none) (hnot : ∀ o x, x ∈ s.infos o → x.1 ≠ id) :
    Weak owner (complete s ids need c id parts) := by
  have hmono : ∀ i, s.store i ≠ none → upd s.store id (some parts) i ≠ none := by
    intro i hi
    by_cases e : i = id
    · subst e; simp [upd_eq]
    · rw [upd_ne e]; exact hi
  have hst' : ∀ i, upd s.store id (some parts) i ≠ none → i ∈ s.sent := by
    intro i hi
    by_cases e : i = id
    · exact e ▸ hsent
    · rw [upd_ne e] at hi; exact hst i hi
  have hinfo' : ∀ o x, x ∈ s.infos o → x.1 ∈ s.sent ∧ upd s.store id (some parts) x.1 = none ∧ owner x.1 = o := by
    intro o x hx
    have := hinfo o x hx
    rw [upd_ne (hnot o x hx)]
    exact this
  have hlog' : ∀ ids vals, Outcome.returned ids vals ∈ s.log → ∀ i ∈ ids, upd s.store id (some parts) i ≠ none :=
    fun ids vals hm i hi => hmono i (hlog ids vals hm i hi)
  unfold complete
  split
  · rename_i hneed
    have hcount := (count_upd_le (p := parts) hnone need).1 hneed
    have harr := h.arrived
    split
    · refine ⟨hst', hinfo', hnd, ⟨fun i hi => (h.all i hi).imp (fun h => h) (hmono i), ?_⟩, hlog'⟩
      show c + 1 ≤ (need.filter fun i => (upd s.store id (some parts) i).isSome).length
      omega
    · rename_i hlt
      refine ⟨hst', hinfo', hnd, trivial, fun ids' vals hm => ?_⟩
      rcases List.mem_append.1 hm with hm | hm
      · exact hlog' _ _ hm
      · simp only [List.mem_singleton, Outcome.returned.injEq] at hm
        obtain ⟨h1, h2⟩ := hm
        subst h1
        intro i hi
        rcases h.all i hi with h | h
        · exact count_full (store := upd s.store id (some parts)) (by omega) i h
        · exact hmono i h
  · refine ⟨hst', hinfo', hnd, trivial, fun ids' vals hm => ?_⟩
    rcases List.mem_append.1 hm with hm | hm
    · exact hlog' _ _ hm
    · simp at hm

theorem weak_step {s s' : State} {a : Act} (h : Weak owner s) (hs : step value owner s a = some s') : Weak owner s' := by
  cases a with
  | get ids =>
    simp only [step] at hs
    split at hs
    · split at hs
      · rename_i hroot hneed
        cases hs
        refine ⟨h.stored, h.info, h.nodup, by simp [RootWeak, hroot], fun ids' v hm => ?_⟩
        rcases List.mem_append.1 hm with hm | hm
        · exact h.log _ v hm
        · simp only [List.mem_singleton, Outcome.returned.injEq] at hm
          obtain ⟨h1, h2⟩ := hm
          subst h1
          intro i hi e
          have : i ∈ ([] : List Nat) := hneed ▸ List.mem_filter.2 ⟨hi, by simpa using e⟩
          simp at this
      · cases hs
        refine ⟨h.stored, h.info, h.nodup, ⟨fun i hi => ?_, Nat.zero_le _⟩, h.log⟩
        cases hv : s.store i with
        | none => exact .inl (List.mem_filter.2 ⟨hi, by simp [hv]⟩)
        | some v => exact .inr (by simp)
    · cases hs
  | answer id =>
    simp only [step] at hs
    split at hs
    · rename_i hid
      cases hs
      have hnew : s.store id = none := by
        cases hv : s.store id with
        | none => rfl
        | some v => exact absurd (h.stored id (by simp [hv])) hid.2
      refine ⟨fun i hi => List.mem_append_left _ (h.stored i hi), fun o x hx => ?_, fun o => ?_, ?_, h.log⟩
      · by_cases e : o = owner id
        · subst e
          simp only [upd_eq] at hx
          rcases List.mem_append.1 hx with hx | hx
          · exact ⟨List.mem_append_left _ (h.info _ x hx).1, (h.info _ x hx).2⟩
          · simp only [List.mem_singleton] at hx
            subst hx
            exact ⟨by simp, hnew, rfl⟩
        · simp only [upd_ne e] at hx
          exact ⟨List.mem_append_left _ (h.info _ x hx).1, (h.info _ x hx).2⟩
      · by_cases e : o = owner id
        · subst e
          simp only [upd_eq, List.map_append, List.map_cons, List.map_nil]
          refine List.nodup_append.2 ⟨h.nodup _, by simp, fun a ha b hb e => ?_⟩
          simp only [List.mem_singleton] at hb
          subst hb
          replace ha := List.mem_map.1 ha
          obtain ⟨x, hx, rfl⟩ := ha
          exact hid.2 (e ▸ (h.info _ x hx).1)
        · simp only [upd_ne e]; exact h.nodup o
      · have hr := h.root
        unfold RootWeak at hr ⊢
        cases hroot : s.root with
        | idle => trivial
        | waiting ids need c => rw [hroot] at hr; exact hr
        | receiving ids need c src i lens parts =>
          rw [hroot] at hr
          refine ⟨hr.1, List.mem_append_left _ hr.2.1, hr.2.2.1, fun o x hx => ?_⟩
          by_cases e : o = owner id
          · subst e
            simp only [upd_eq] at hx
            rcases List.mem_append.1 hx with hx | hx
            · exact hr.2.2.2 _ x hx
            · simp only [List.mem_singleton] at hx
              subst hx
              exact fun (e : id = i) => hid.2 (e ▸ hr.2.1)
          · simp only [upd_ne e] at hx; exact hr.2.2.2 _ x hx
    · cases hs
  | info src =>
    simp only [step] at hs
    split at hs
    · rename_i ids need c id lens rest hroot hinfo
      cases hs
      have hr := h.root
      unfold RootWeak at hr
      rw [hroot] at hr
      have hx := h.info src (id, lens) (by rw [hinfo]; simp)
      have hnd := h.nodup src
      rw [hinfo, List.map_cons, List.nodup_cons] at hnd
      have hsub : ∀ o x, x ∈ upd s.infos src rest o → x ∈ s.infos o := by
        intro o x hxo
        by_cases e : o = src
        · subst e; simp only [upd_eq] at hxo; rw [hinfo]; simp [hxo]
        · simpa only [upd_ne e] using hxo
      refine ⟨h.stored, fun o x hxo => h.info o x (hsub o x hxo), fun o => ?_, ⟨hr, hx.1, hx.2.1, fun o x hxo e => ?_⟩, h.log⟩
      · by_cases e : o = src
        · subst e; simp only [upd_eq]; exact hnd.2
        · simp only [upd_ne e]; exact h.nodup o
      · have ho : o = src := by rw [← (h.info o x (hsub o x hxo)).2.2, e]; exact hx.2.2
        subst ho
        simp only [upd_eq] at hxo
        exact hnd.1 (e ▸ List.mem_map.2 ⟨x, hxo, rfl⟩)
    · cases hs
  | buffer =>
    simp only [step] at hs
    split at hs
    · rename_i ids need c src id n lens parts hroot
      have hr := h.root
      unfold RootWeak at hr
      rw [hroot] at hr
      split at hs
      · cases hs
      · split at hs
        · cases hs
          refine ⟨h.stored, h.info, h.nodup, trivial, fun ids' v hm => ?_⟩
          rcases List.mem_append.1 hm with hm | hm
          · exact h.log _ v hm
          · simp at hm
        · split at hs
          · cases hs
            exact weak_complete hr.1 h.stored h.info h.nodup h.log hr.2.1 hr.2.2.1 hr.2.2.2
          · cases hs
            exact ⟨h.stored, h.info, h.nodup, hr, h.log⟩
    · cases hs
  | signal =>
    simp only [step] at hs
    split at hs
    · cases hs
    · cases hs
      exact ⟨h.stored, h.info, h.nodup, trivial, h.log⟩

theorem weak_run : ∀ (acts : List Act) {s s' : State}, Weak owner s → run value owner s acts = some s' → Weak owner s'
  | [], s, s', h, hr => by cases hr; exact h
  | a :: as, s, s', h, hr => by
    simp only [run, Option.bind_eq_some_iff] at hr
    obtain ⟨t, ht, hr⟩ := hr
    exact weak_run as (weak_step h ht) hr

/-- An object whose reception was interrupted. -/
structure Lost (s : State) (id : Nat) : Prop where
  sent : id ∈ s.sent
  none : s.store id = Option.none
  info : ∀ o x, x ∈ s.infos o → x.1 ≠ id
  root : ∀ ids need c src i lens parts, s.root = .receiving ids need c src i lens parts → i ≠ id

theorem complete_sent (s : State) (ids need : List Nat) (c id : Nat) (parts : List Bytes) :
    (complete s ids need c id parts).sent = s.sent ∧ (complete s ids need c id parts).infos = s.infos ∧
    (complete s ids need c id parts).asked = s.asked ∧
    (complete s ids need c id parts).store = upd s.store id (some parts) ∧
    ∀ ids' need' c' src i lens parts', (complete s ids need c id parts).root ≠ .receiving ids' need' c' src i lens parts' := by
  unfold complete
  split
  · split <;> simp
  · simp

theorem lost_step {s s' : State} {a : Act} {id : Nat} (h : Lost s id) (hs : step value owner s a = some s') : Lost s' id := by
  cases a with
  | get ids =>
    simp only [step] at hs
    split at hs
    · split at hs
      · cases hs; exact ⟨h.sent, h.none, h.info, h.root⟩
      · cases hs; exact ⟨h.sent, h.none, h.info, by simp⟩
    · cases hs
  | answer i =>
    simp only [step] at hs
    split at hs
    · rename_i hid
      cases hs
      refine ⟨List.mem_append_left _ h.sent, h.none, fun o x hx => ?_, h.root⟩
      by_cases e : o = owner i
      · subst e
        simp only [upd_eq] at hx
        rcases List.mem_append.1 hx with hx | hx
        · exact h.info _ x hx
        · simp only [List.mem_singleton] at hx
          subst hx
          exact fun (e : i = id) => hid.2 (e ▸ h.sent)
      · simp only [upd_ne e] at hx; exact h.info _ x hx
    · cases hs
  | info src =>
    simp only [step] at hs
    split at hs
    · rename_i ids need c i lens rest hroot hinfo
      cases hs
      refine ⟨h.sent, h.none, fun o x hx => ?_, fun _ _ _ _ _ _ _ e => ?_⟩
      · by_cases e : o = src
        · subst e; simp only [upd_eq] at hx; exact h.info _ x (by rw [hinfo]; simp [hx])
        · simp only [upd_ne e] at hx; exact h.info _ x hx
      · cases e
        exact h.info src (i, lens) (by rw [hinfo]; simp)
    · cases hs
  | buffer =>
    simp only [step] at hs
    split at hs
    · rename_i ids need c src i n lens parts hroot
      have hi := h.root _ _ _ _ _ _ _ hroot
      split at hs
      · cases hs
      · split at hs
        · cases hs; exact ⟨h.sent, h.none, h.info, by simp⟩
        · split at hs
          · cases hs
            obtain ⟨h1, h2, _, h3, h4⟩ := complete_sent { s with buffers := upd s.buffers src ‹_› } ids need c i (parts ++ [‹Bytes› ++ List.replicate (n - (‹Bytes› : Bytes).length) 0])
            refine ⟨by rw [h1]; exact h.sent, by rw [h3, upd_ne (Ne.symm hi)]; exact h.none, by rw [h2]; exact h.info, fun _ _ _ _ _ _ _ e => absurd e (h4 _ _ _ _ _ _ _)⟩
          · cases hs
            refine ⟨h.sent, h.none, h.info, fun _ _ _ _ _ _ _ e => ?_⟩
            cases e; exact hi
    · cases hs
  | signal =>
    simp only [step] at hs
    split at hs
    · cases hs
    · cases hs; exact ⟨h.sent, h.none, h.info, by simp⟩

theorem lost_run : ∀ (acts : List Act) {s s' : State} {id : Nat}, Lost s id → run value owner s acts = some s' → Lost s' id
  | [], s, s', _, h, hr => by cases hr; exact h
  | a :: as, s, s', _, h, hr => by
    simp only [run, Option.bind_eq_some_iff] at hr
    obtain ⟨t, ht, hr⟩ := hr
    exact lost_run as (lost_step h ht) hr

/-- A call, begun when the log was `log`, that can only receive what it asked for. -/
def Fresh (log : List Outcome) (ids need : List Nat) (s : State) : Prop :=
  match s.root with
  | .idle => s.log = log ∨ ∃ vals, s.log = log ++ [.returned ids vals]
  | .waiting ids' need' _ => ids' = ids ∧ need' = need ∧ s.log = log ∧ ∀ i ∈ s.asked, s.store i ≠ none ∨ i ∈ need
  | .receiving ids' need' _ _ _ _ _ => ids' = ids ∧ need' = need ∧ s.log = log ∧ ∀ i ∈ s.asked, s.store i ≠ none ∨ i ∈ need

theorem fresh_step {s s' : State} {a : Act} {log : List Outcome} {ids need : List Nat} (hi : Inv value owner s) (h : Fresh log ids need s)
    (ha : ∀ ids, a ≠ .get ids) (hs : step value owner s a = some s') : Fresh log ids need s' := by
  cases a with
  | get ids => exact absurd rfl (ha ids)
  | answer i =>
    simp only [step] at hs
    split at hs
    · cases hs
      unfold Fresh at h ⊢
      cases hroot : s.root with
      | idle => rw [hroot] at h; exact h
      | waiting => rw [hroot] at h; exact h
      | receiving => rw [hroot] at h; exact h
    · cases hs
  | info src =>
    simp only [step] at hs
    split at hs
    · rename_i ids' need' c i lens rest hroot hinfo
      cases hs
      unfold Fresh at h
      rw [hroot] at h
      exact h
    · cases hs
  | buffer =>
    simp only [step] at hs
    split at hs
    · rename_i ids' need' c src i n lens parts hroot
      have hr := hi.root
      unfold RootOk at hr
      rw [hroot] at hr
      obtain ⟨h1, h2, h3, h4, h5, h6, rem, h7, h8, h9, h10⟩ := hr
      unfold Fresh at h
      rw [hroot] at h
      obtain ⟨rfl, rfl, hlog, hask⟩ := h
      have hneed : i ∈ need' := (hask i (hi.asked i h4)).resolve_left (fun e => e h5)
      cases rem with
      | nil => exact absurd rfl h9
      | cons b rem =>
        simp only [List.map_cons, List.cons.injEq] at h8
        rw [h10, List.cons_append] at hs
        simp only [h8.1, Nat.lt_irrefl, if_false, Nat.sub_self, List.replicate_zero, List.append_nil] at hs
        split at hs
        · cases hs
          unfold complete
          rw [if_pos hneed]
          split
          · refine ⟨rfl, rfl, hlog, fun j hj => ?_⟩
            by_cases e : j = i
            · exact .inr (e ▸ hneed)
            · show upd s.store i _ j ≠ none ∨ _
              rw [upd_ne e]; exact hask j hj
          · exact .inr ⟨_, by rw [← hlog]⟩
        · cases hs
          exact ⟨rfl, rfl, hlog, hask⟩
    · cases hs
  | signal =>
    simp only [step] at hs
    split at hs
    · cases hs
    · rename_i hne
      cases hs
      unfold Fresh at h
      cases hroot : s.root with
      | idle => exact absurd hroot hne
      | waiting => rw [hroot] at h; exact .inl h.2.2.1
      | receiving => rw [hroot] at h; exact .inl h.2.2.1

theorem fresh_run (hv : ∀ i, value i ≠ []) : ∀ (acts : List Act) {s s' : State} {log : List Outcome} {ids need : List Nat},
    Inv value owner s → Fresh log ids need s → (∀ ids, .get ids ∉ acts) →
    (∀ pre post u, acts = pre ++ .signal :: post → run value owner s pre = some u → ∃ ids need c, u.root = .waiting ids need c) →
    run value owner s acts = some s' → Fresh log ids need s'
  | [], s, s', _, _, _, _, hf, _, _, h => by cases h; exact hf
  | a :: as, s, s', log, ids, need, hi, hf, hg, hsig, h => by
    simp only [run, Option.bind_eq_some_iff] at h
    obtain ⟨t, ht, h⟩ := h
    have hit : Inv value owner t := by
      refine inv_run hv [a] hi (fun ids hm => ?_) (fun pre post u e hu => ?_) (by simp [run, ht])
      · simp only [List.mem_singleton] at hm; exact absurd (by simp [hm]) (hg ids)
      · cases pre with
        | nil =>
          cases hu
          simp only [List.nil_append, List.cons.injEq] at e
          exact hsig [] as _ (by rw [e.1]; rfl) rfl
        | cons b pre => simp at e
    refine fresh_run hv as hit (fresh_step hi hf (fun ids e => hg ids (by simp [e])) ht) (fun ids hm => hg ids (by simp [hm]))
      (fun pre post u e hu => ?_) h
    refine hsig (a :: pre) post u (by rw [e]; rfl) ?_
    simp only [run, ht, Option.bind_some, hu]

/-- Nothing is outstanding outside of a call, and no call has raised. -/
def Clean (s : State) : Prop :=
  (∀ ids, Outcome.raised ids ∉ s.log) ∧
  match s.root with
  | .idle => ∀ i ∈ s.asked, s.store i ≠ none
  | .waiting _ need _ => ∀ i ∈ s.asked, s.store i ≠ none ∨ i ∈ need
  | .receiving _ need _ _ _ _ _ => ∀ i ∈ s.asked, s.store i ≠ none ∨ i ∈ need

theorem clean_step {s s' : State} {a : Act} (hi : Inv value owner s) (h : Clean s) (ha : a ≠ .signal)
    (hs : step value owner s a = some s') : Clean s' := by
  unfold Clean at h
  cases a with
  | get ids =>
    simp only [step] at hs
    split at hs
    · rename_i hroot
      rw [hroot] at h
      split at hs
      · cases hs
        refine ⟨fun ids' hm => ?_, by rw [hroot]; exact h.2⟩
        rcases List.mem_append.1 hm with hm | hm
        · exact h.1 _ hm
        · simp at hm
      · cases hs
        refine ⟨h.1, fun i hm => ?_⟩
        rcases List.mem_append.1 hm with hm | hm
        · exact .inl (h.2 i hm)
        · exact .inr hm
    · cases hs
  | answer i =>
    simp only [step] at hs
    split at hs
    · cases hs
      unfold Clean
      cases hroot : s.root with
      | idle => rw [hroot] at h; exact h
      | waiting => rw [hroot] at h; exact h
      | receiving => rw [hroot] at h; exact h
    · cases hs
  | info src =>
    simp only [step] at hs
    split at hs
    · rename_i ids' need' c i lens rest hroot hinfo
      cases hs
      rw [hroot] at h
      exact h
    · cases hs
  | buffer =>
    simp only [step] at hs
    split at hs
    · rename_i ids' need' c src i n lens parts hroot
      have hr := hi.root
      unfold RootOk at hr
      rw [hroot] at hr h
      obtain ⟨h1, h2, h3, h4, h5, h6, rem, h7, h8, h9, h10⟩ := hr
      have hneed : i ∈ need' := (h.2 i (hi.asked i h4)).resolve_left (fun e => e h5)
      cases rem with
      | nil => exact absurd rfl h9
      | cons b rem =>
        simp only [List.map_cons, List.cons.injEq] at h8
        rw [h10, List.cons_append] at hs
        simp only [h8.1, Nat.lt_irrefl, if_false, Nat.sub_self, List.replicate_zero, List.append_nil] at hs
        split at hs
        · cases hs
          unfold complete
          rw [if_pos hneed]
          have hcount := count_upd (p := parts ++ [b]) h5 need' h1.nodup hneed
          rw [h1.arrived] at hcount
          split
          · refine ⟨h.1, fun j hj => ?_⟩
            by_cases e : j = i
            · exact .inr (e ▸ hneed)
            · show upd s.store i _ j ≠ none ∨ _
              rw [upd_ne e]; exact h.2 j hj
          · rename_i hlt
            refine ⟨fun ids hm => ?_, fun j hj => ?_⟩
            · rcases List.mem_append.1 hm with hm | hm
              · exact h.1 _ hm
              · simp at hm
            · show upd s.store i _ j ≠ none
              rcases h.2 j hj with e | e
              · by_cases e' : j = i
                · subst e'; simp [upd_eq]
                · rw [upd_ne e']; exact e
              · exact count_full (store := upd s.store i (some (parts ++ [b]))) (by omega) j e
        · cases hs
          exact h
    · cases hs
  | signal => exact absurd rfl ha

theorem clean_run (hv : ∀ i, value i ≠ []) : ∀ (acts : List Act) {s s' : State}, Inv value owner s → Clean s →
    (∀ ids, .get ids ∈ acts → ids.Nodup) → .signal ∉ acts → run value owner s acts = some s' → Clean s'
  | [], s, s', _, hf, _, _, h => by cases h; exact hf
  | a :: as, s, s', hi, hf, hg, hsig, h => by
    simp only [run, Option.bind_eq_some_iff] at h
    obtain ⟨t, ht, h⟩ := h
    have ha : a ≠ .signal := fun e => hsig (by simp [e])
    have hit : Inv value owner t := by
      refine inv_run hv [a] hi (fun ids hm => hg ids ?_) (fun pre post u e hu => ?_) (by simp [run, ht])
      · simp only [List.mem_singleton] at hm; simp [hm]
      · cases pre with
        | nil => simp at e; exact absurd e.1 ha
        | cons b pre => simp at e
    exact clean_run hv as hit (clean_step hi hf ha ht) (fun ids hm => hg ids (by simp [hm])) (fun hm => hsig (by simp [hm])) h

end Verif.InterruptGet
