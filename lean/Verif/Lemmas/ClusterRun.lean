import Verif.Lemmas.ClusterRoot

/-! The invariant holds in every run. -/
namespace Verif.Cluster
open Verif.Spec
open Verif.Worker

variable {W : World} {isW : Nat → Bool} {m : Nat} {c : Cluster} {calls : List Call} {subs : List Sub}

theorem append_snoc_cases {α : Type} {l pre post : List α} {a b : α} (h : l ++ [b] = pre ++ a :: post) :
    (∃ post', post = post' ++ [b] ∧ l = pre ++ a :: post') ∨ (post = [] ∧ l = pre ∧ a = b) := by
  rcases List.eq_nil_or_concat post with rfl | ⟨post', z, rfl⟩
  · right
    have := List.append_inj' h rfl
    simp only [List.cons.injEq, and_true] at this
    exact ⟨rfl, this.1, this.2.symm⟩
  · left
    have h2 : l ++ [b] = (pre ++ a :: post') ++ [z] := by rw [h]; simp
    have := List.append_inj' h2 rfl
    simp only [List.cons.injEq, and_true] at this
    exact ⟨post', by rw [this.2]; simp, this.1⟩

theorem resultsOK_snoc {D : Nat → Option Val} {own : Nat → Option Nat} {l : List (List Nat × GetResult)} {ids : List Nat}
    {res : GetResult} (h : ∀ pre ids res post, l = pre ++ (ids, res) :: post → ResOK D own pre ids res)
    (hn : ResOK D own l ids res) :
    ∀ pre ids' res' post, l ++ [(ids, res)] = pre ++ (ids', res') :: post → ResOK D own pre ids' res' := by
  intro pre ids' res' post he
  rcases append_snoc_cases he with ⟨post', -, h2⟩ | ⟨-, h2, h3⟩
  · exact h pre ids' res' post' h2
  · rw [Prod.mk.injEq] at h3
    obtain ⟨rfl, rfl⟩ := h3
    rw [← h2]; exact hn

theorem map_getD {D : Nat → Option Val} {st : Nat → Option Val} (hle : Le st D) (ids : List Nat)
    (h : ∀ i ∈ ids, st i ≠ none) : ids.map D = (ids.map fun i => (st i).getD (.data 0)).map some := by
  rw [List.map_map]
  apply List.map_congr_left
  intro i hi
  obtain ⟨v, hv⟩ := Option.ne_none_iff_exists'.1 (h i hi)
  simp [hv, hle i v hv]

/-- `get` when everything is present. -/
theorem inv_getNow (h : Inv W isW m c calls subs) (ids : List Nat) (hw : c.root.waiting = none)
    (hall : ∀ i ∈ ids, c.root.store i ≠ none) : Inv W isW m { c with root := c.root.finishGet ids none } calls subs := by
  have hfetch : ∀ i, c.root.store i ≠ none → c.root.owner i ≠ none → ∃ p ∈ c.root.results, i ∈ p.1 := by
    intro i h1 h2
    rcases h.fetched i h1 h2 with hc | ⟨wt, hc, -⟩
    · exact hc
    · rw [hw] at hc; simp at hc
  exact {
    ok := h.ok, dom := h.dom, own := h.own, bound := h.bound, early := h.early, submits := h.submits, tag := h.tag,
    rstore := h.rstore, worker := h.worker, outbox := h.outbox, pend := h.pend, chan := h.chan, fifo := h.fifo,
    sentR := h.sentR, dataN := h.dataN, dataS := h.dataS, rootS := h.rootS
    wait := by intro wt hwt; simp [Root.finishGet] at hwt
    fetched := by
      intro i h1 h2
      obtain ⟨p, hp, hi⟩ := hfetch i h1 h2
      exact Or.inl ⟨p, List.mem_append_left _ hp, hi⟩
    results := by
      simp only [Root.finishGet]
      refine resultsOK_snoc h.results ⟨map_getD h.rstore ids hall, ?_⟩
      intro i hi ho hp
      obtain ⟨p, hp1, hp2⟩ := hfetch i (hall i hi) ho
      exact absurd hp2 (hp p hp1)
    tags := h.tags }

/-- `get` that has to ask workers. -/
theorem inv_getWait (h : Inv W isW m c calls subs) (h0 : isW 0 = false) (ids : List Nat) (hw : c.root.waiting = none)
    (hne : (ids.filter fun i => (c.root.store i).isNone) ≠ [])
    (hall : ∀ i ∈ ids.filter fun i => (c.root.store i).isNone, c.root.owner i ≠ none) :
    Inv W isW m { c with
      root := { c.root with waiting := some ⟨ids, ids.filter fun i => (c.root.store i).isNone,
        (ids.filter fun i => (c.root.store i).isNone).length, none⟩ }
      chan := sendAll c.chan 0
        ((ids.filter fun i => (c.root.store i).isNone).map fun i => ((c.root.owner i).getD 0, .get 0 i true)) } calls subs := by
  generalize hr : (ids.filter fun i => (c.root.store i).isNone) = remote at *
  have hrm : ∀ i, i ∈ remote ↔ i ∈ ids ∧ c.root.store i = none := by
    intro i; rw [← hr, List.mem_filter]; simp
  have hm : ∀ d k, k ∈ ((remote.map fun i => ((c.root.owner i).getD 0, Msg.get 0 i true)).filter (·.1 = d)).map (·.2) →
      ∃ i, k = .get 0 i true ∧ c.root.owner i = some d := by
    intro d k hk
    simp only [List.mem_map, List.mem_filter, decide_eq_true_eq] at hk
    obtain ⟨p, ⟨⟨i, hi, rfl⟩, hd⟩, rfl⟩ := hk
    obtain ⟨o, ho⟩ := Option.ne_none_iff_exists'.1 (hall i hi)
    refine ⟨i, rfl, ?_⟩
    rw [ho] at hd ⊢
    simpa using hd
  have hnot0 : ∀ i, c.root.owner i ≠ some 0 := by
    intro i hi
    have := (h.own i 0 hi).2.1
    rw [h0] at this; simp at this
  have hchan0 : ∀ a, sendAll c.chan 0 (remote.map fun i => ((c.root.owner i).getD 0, Msg.get 0 i true)) a 0 = c.chan a 0 := by
    intro a
    by_cases ha : a = 0
    · subst ha
      rw [sendAll_self]
      have : ((remote.map fun i => ((c.root.owner i).getD 0, Msg.get 0 i true)).filter (·.1 = 0)).map (·.2) = [] := by
        apply List.eq_nil_iff_forall_not_mem.2
        intro k hk
        obtain ⟨i, -, hi⟩ := hm 0 k hk
        exact hnot0 i hi
      rw [this]; simp
    · rw [sendAll_other _ _ _ ha]
  exact {
    ok := h.ok, dom := h.dom, own := h.own, bound := h.bound, early := h.early, submits := h.submits, tag := h.tag,
    rstore := h.rstore, worker := h.worker, outbox := h.outbox, pend := h.pend
    chan := by
      intro a b k hk
      rcases mem_sendAll hk with hk1 | ⟨rfl, hk1⟩
      · exact h.chan a b k hk1
      · obtain ⟨i, rfl, hi⟩ := hm b k (by
          rw [List.mem_map]
          exact ⟨(b, k), List.mem_filter.2 ⟨hk1, by simp⟩, rfl⟩)
        exact ⟨rfl, hi, by simp⟩
    fifo := by
      intro d hd
      simp only
      rw [sendAll_self]
      apply okFrom_append _ (h.fifo d hd)
      apply okFrom_plain
      intro k hk r hkr
      obtain ⟨i, hi, -⟩ := hm d k hk
      rw [hi] at hkr; simp at hkr
    sentR := by
      intro i d hd hi
      rcases h.sentR i d hd hi with k | ⟨q, hq, k⟩
      · exact Or.inl k
      · exact Or.inr ⟨q, by simp only; exact mem_sendAll_old hq, k⟩
    dataN := by intro a; simp only; rw [hchan0]; exact h.dataN a
    dataS := by
      intro a ha i hi
      simp only at hi
      rw [hchan0] at hi
      exact h.dataS a ha i hi
    rootS := h.rootS
    wait := by
      intro wt hwt
      simp only [Option.some.injEq] at hwt
      subst hwt
      refine ⟨[], List.nodup_nil, by simp, by simp, ?_, by simp, ?_, ?_, by simp, by simp, ?_, hall⟩
      · exact List.length_pos_iff.2 hne
      · intro i hi
        by_cases hs : c.root.store i = none
        · exact Or.inr ((hrm i).2 ⟨hi, hs⟩)
        · exact Or.inl hs
      · exact fun i hi => ((hrm i).1 hi).1
      · intro i hi ho hp
        apply (hrm i).2
        refine ⟨hi, ?_⟩
        apply Decidable.byContradiction
        intro hs
        rcases h.fetched i hs ho with ⟨p, hp1, hp2⟩ | ⟨wt, hc, -⟩
        · exact hp p hp1 hp2
        · rw [hw] at hc; simp at hc
    fetched := by
      intro i h1 h2
      rcases h.fetched i h1 h2 with hc | ⟨wt, hc, -⟩
      · exact Or.inl hc
      · rw [hw] at hc; simp at hc
    results := h.results
    tags := by
      intro d hd
      simp only
      rw [sendAll_self, execTags_append, execTags_nil (l := List.map _ _)]
      · simpa using h.tags d hd
      · intro k hk r hkr
        obtain ⟨i, hi, -⟩ := hm d k hk
        rw [hi] at hkr; simp at hkr }

theorem excOf_some {v : Val} {e : Nat} (h : excOf v = some e) : v = .exc e := by
  cases v <;> simp_all [excOf]

/-- A reply arrives. -/
theorem inv_reply (h : Inv W isW m c calls subs) (h0 : isW 0 = false) {src : Nat} {wt : Waiting} {id : Nat} {v : Val}
    {t : List Msg} (hw : c.root.waiting = some wt) (hc : c.chan src 0 = .data id v :: t) (hid : id ∈ wt.remote) :
    Inv W isW m { c with
      root := if wt.missing ≤ 1 then
          ({ c.root with store := upd c.root.store id v } : Root).finishGet wt.ids (wt.failed <|> excOf v)
        else { c.root with
          store := upd c.root.store id v
          waiting := some { wt with missing := wt.missing - 1, failed := wt.failed <|> excOf v } }
      chan := fun s d => if s = src ∧ d = 0 then t else c.chan s d } calls subs := by
  have hmem : Msg.data id v ∈ c.chan src 0 := by rw [hc]; simp
  obtain ⟨hD, -, hown⟩ := h.chan src 0 _ hmem
  simp only [ctx] at hD hown
  have hsrc := (h.own id src hown).2.1
  have hmd : id ∈ dataIds (c.chan src 0) := mem_dataIds.2 ⟨v, hmem⟩
  obtain ⟨hsent, hnone⟩ := h.dataS src hsrc id hmd
  have hgrow : ∀ i, c.root.store i ≠ none → upd c.root.store id v i ≠ none := by
    intro i hi; simp only [upd]; split
    · simp
    · exact hi
  have hupd : ∀ i, upd c.root.store id v i ≠ none → i = id ∨ c.root.store i ≠ none := by
    intro i hi
    simp only [upd] at hi
    split at hi
    · rename_i hc; exact Or.inl hc
    · exact Or.inr hi
  have hle : Le (upd c.root.store id v) (meaning W calls) := by
    intro i u hu
    simp only [upd] at hu
    split at hu
    · rename_i hi; subst hi; rw [hD, hu]
    · exact h.rstore i u hu
  have hnd := h.dataN src
  rw [hc] at hnd
  simp only [dataIds, List.filterMap_cons] at hnd
  rw [List.nodup_cons] at hnd
  obtain ⟨got, g1, g2, g3, g4, g5, g6, g7, g8, g9, g10, g11⟩ := h.wait wt hw
  have hnew : (id :: got).Nodup := List.nodup_cons.2 ⟨fun hcon => g5 id hcon hnone, g1⟩
  have hsub : ∀ i ∈ id :: got, i ∈ wt.remote := by
    intro i hi
    rw [List.mem_cons] at hi
    rcases hi with rfl | hi
    · exact hid
    · exact g2 i hi
  have hf1 : ∀ e, (wt.failed <|> excOf v) = some e → ∃ i ∈ wt.ids, meaning W calls i = some (.exc e) := by
    intro e he
    cases hfa : wt.failed with
    | some e' =>
      rw [hfa] at he
      simp only [Option.orElse_eq_orElse, Option.orElse_eq_or, Option.some_or, Option.some.injEq] at he
      subst he
      exact g8 _ hfa
    | none =>
      rw [hfa] at he
      simp only [Option.orElse_eq_orElse, Option.orElse_eq_or, Option.none_or] at he
      rw [excOf_some he] at hD
      exact ⟨id, g7 id hid, hD⟩
  have hf2 : ∀ i ∈ id :: got, ∀ e, meaning W calls i = some (.exc e) → (wt.failed <|> excOf v) ≠ none := by
    intro i hi e he
    rw [List.mem_cons] at hi
    rcases hi with rfl | hi
    · rw [hD] at he
      simp only [Option.some.injEq] at he
      subst he
      cases wt.failed <;> simp [excOf]
    · have := g9 i hi e he
      cases hfa : wt.failed with
      | none => exact absurd hfa this
      | some e' => simp
  have hchan : ∀ a b k, k ∈ (if a = src ∧ b = 0 then t else c.chan a b) → k ∈ c.chan a b := by
    intro a b k hk
    split at hk
    · rename_i hab
      obtain ⟨rfl, rfl⟩ := hab
      rw [hc]; exact List.mem_cons_of_mem _ hk
    · exact hk
  have hchan' : ∀ d, isW d = true → (if 0 = src ∧ d = 0 then t else c.chan 0 d) = c.chan 0 d := by
    intro d hd
    rw [if_neg]
    rintro ⟨rfl, -⟩
    rw [h0] at hsrc
    simp at hsrc
  have main : ∀ r' : Root, r'.store = upd c.root.store id v → r'.owner = c.root.owner → r'.sent = c.root.sent →
      r'.nextId = c.root.nextId → r'.nextTag = c.root.nextTag →
      (∀ wt, r'.waiting = some wt → WaitOK (meaning W calls) r' wt) →
      (∀ i, r'.store i ≠ none → r'.owner i ≠ none →
        (∃ p ∈ r'.results, i ∈ p.1) ∨ ∃ wt, r'.waiting = some wt ∧ i ∈ wt.ids) →
      (∀ pre ids res post, r'.results = pre ++ (ids, res) :: post → ResOK (meaning W calls) r'.owner pre ids res) →
      Inv W isW m { c with root := r', chan := fun s d => if s = src ∧ d = 0 then t else c.chan s d } calls subs := by
    intro r' e1 e2 e3 e4 e5 hwait hfetch hres
    have hctx : ctx W m { c with root := r', chan := fun s d => if s = src ∧ d = 0 then t else c.chan s d } calls subs =
        ctx W m c calls subs := by simp only [ctx, e2]
    exact {
      ok := by rw [hctx]; exact h.ok
      dom := by simp only [e4]; exact h.dom
      own := by simp only [e2, e4]; exact h.own
      bound := by simp only [e4]; exact h.bound
      early := h.early
      submits := h.submits
      tag := by simp only [e5]; exact h.tag
      rstore := by simp only [e1]; exact hle
      worker := by rw [hctx]; exact h.worker
      outbox := h.outbox
      pend := by rw [hctx]; exact h.pend
      chan := by rw [hctx]; exact fun a b k hk => h.chan a b k (hchan a b k hk)
      fifo := by
        intro d hd
        simp only
        rw [hchan' d hd]; exact h.fifo d hd
      sentR := by
        intro i d hd hi
        simp only
        rw [hchan' d hd]
        simp only [e3] at hi
        exact h.sentR i d hd hi
      dataN := by
        intro a
        simp only
        split
        · exact hnd.2
        · exact h.dataN a
      dataS := by
        intro a ha i hi
        simp only at hi ⊢
        rw [e1]
        split at hi
        · rename_i haa
          obtain ⟨rfl, -⟩ := haa
          have hi' : i ∈ dataIds (c.chan a 0) := by
            rw [hc]
            obtain ⟨u, hu⟩ := mem_dataIds.1 hi
            exact mem_dataIds.2 ⟨u, List.mem_cons_of_mem _ hu⟩
          obtain ⟨k1, k2⟩ := h.dataS a ha i hi'
          refine ⟨k1, ?_⟩
          simp only [upd]
          rw [if_neg]
          · exact k2
          · rintro rfl
            exact hnd.1 hi
        · rename_i haa
          obtain ⟨k1, k2⟩ := h.dataS a ha i hi
          refine ⟨k1, ?_⟩
          simp only [upd]
          rw [if_neg]
          · exact k2
          · rintro rfl
            have := (h.dataOwner hi).1
            rw [hown] at this
            simp only [Option.some.injEq] at this
            exact haa ⟨this.symm, trivial⟩
      rootS := by
        intro i o hst ho
        simp only [e1] at hst
        simp only [e2] at ho
        rcases hupd i hst with rfl | hst
        · rw [hown] at ho
          simp only [Option.some.injEq] at ho
          rw [← ho]; exact hsent
        · exact h.rootS i o hst ho
      wait := hwait
      fetched := hfetch
      results := hres
      tags := by
        intro d hd
        simp only
        rw [hchan' d hd]; exact h.tags d hd }
  have hfetch : ∀ i, upd c.root.store id v i ≠ none → c.root.owner i ≠ none → (∃ p ∈ c.root.results, i ∈ p.1) ∨ i ∈ wt.ids := by
    intro i h1 h2
    rcases hupd i h1 with rfl | h1
    · exact Or.inr (g7 _ hid)
    · rcases h.fetched i h1 h2 with hq | ⟨wt', hq, hi⟩
      · exact Or.inl hq
      · rw [hw] at hq
        simp only [Option.some.injEq] at hq
        subst hq
        exact Or.inr hi
  split
  · rename_i hmis
    refine main _ rfl rfl rfl rfl rfl (by intro wt' hwt'; simp [Root.finishGet] at hwt') ?_ ?_
    · intro i h1 h2
      left
      simp only [Root.finishGet] at h1 h2 ⊢
      rcases hfetch i h1 h2 with ⟨p, hp, hi⟩ | hi
      · exact ⟨p, List.mem_append_left _ hp, hi⟩
      · exact ⟨(wt.ids, _), List.mem_append_right _ (List.mem_singleton.2 rfl), hi⟩
    · simp only [Root.finishGet]
      refine resultsOK_snoc h.results ?_
      have hlen : wt.remote.length ≤ (id :: got).length := by simp only [List.length_cons]; omega
      have hperm := (hnew.subperm hsub).perm_of_length_le hlen
      have hremote : ∀ i ∈ wt.remote, i ∈ id :: got := fun i hi => hperm.mem_iff.2 hi
      have hstored : ∀ i ∈ id :: got, upd c.root.store id v i ≠ none := by
        intro i hi
        rw [List.mem_cons] at hi
        rcases hi with rfl | hi
        · simp [upd]
        · exact hgrow i (g5 i hi)
      cases hfa : (wt.failed <|> excOf v) with
      | some e => exact hf1 e hfa
      | none =>
        refine ⟨map_getD hle wt.ids ?_, ?_⟩
        · intro i hi
          rcases g6 i hi with hq | hq
          · exact hgrow i hq
          · exact hstored i (hremote i hq)
        · intro i hi ho hp e he
          exact hf2 i (hremote i (g10 i hi ho hp)) e he hfa
  · rename_i hmis
    refine main _ rfl rfl rfl rfl rfl ?_ ?_ h.results
    · intro wt' hwt'
      simp only [Option.some.injEq] at hwt'
      subst hwt'
      refine ⟨id :: got, hnew, hsub, ?_, ?_, ?_, ?_, g7, hf1, hf2, g10, g11⟩
      · simp only [List.length_cons]; omega
      · simp only; omega
      · intro i hi
        rw [List.mem_cons] at hi
        rcases hi with rfl | hi
        · simp [upd]
        · exact hgrow i (g5 i hi)
      · intro i hi
        rcases g6 i hi with hq | hq
        · exact Or.inl (hgrow i hq)
        · exact Or.inr hq
    · intro i h1 h2
      rcases hfetch i h1 h2 with hq | hq
      · exact Or.inl hq
      · exact Or.inr ⟨_, rfl, hq⟩

/-- A worker receives an operation. -/
theorem inv_deliver (h : Inv W isW m c calls subs) (h0 : isW 0 = false) {src dst : Nat} (hd : isW dst = true) {k : Msg}
    {t : List Msg} (hc : c.chan src dst = k :: t) {w' : Worker} (hh : (c.worker dst).handle W k = .ok w') :
    Inv W isW m ({ c with chan := fun s d => if s = src ∧ d = dst then t else c.chan s d }.flush dst w') calls subs := by
  have hd0 : dst ≠ 0 := by rintro rfl; rw [h0] at hd; simp at hd
  have hk := h.chan src dst k (by rw [hc]; simp)
  have harr : Arrives (fun i => (c.worker dst).store i ≠ none ∨ (c.worker dst).owner i ≠ none)
      (fun i => (c.worker dst).store i ≠ none) k := by
    by_cases hs : src = 0
    · subst hs
      have := h.fifo dst hd
      rw [hc] at this
      exact this.1
    · cases k with
      | execute r => exact absurd hk.1 hs
      | _ => trivial
  obtain ⟨s1, s2, s3, s4, s5, s6, -⟩ := handle_spec h.ok hd0 (h.worker dst hd) (h.pend dst hd) hk harr hh
  -- only the main process sends data or locations first
  by_cases hs : src = 0
  · subst hs
    refine inv_flush h hd h0 w' _ (fun s => if s = 0 then [k] else []) ?_ s1 s2 ?_ s4 ?_ ?_
    · intro s e
      by_cases hse : s = 0 ∧ e = dst
      · obtain ⟨rfl, rfl⟩ := hse
        simp [hc]
      · rw [if_neg hse]
        by_cases he : e = dst
        · have : s ≠ 0 := fun hs => hse ⟨hs, he⟩
          simp [he, this]
        · simp [he]
    · intro i hi
      apply s3
      rcases hi with hi | ⟨q, hq, hi⟩
      · exact Or.inl hi
      · simp only [if_true, List.mem_singleton] at hq
        subst hq
        exact Or.inr hi
    · rintro i ⟨q, hq, hi⟩
      simp only [if_true, List.mem_singleton] at hq
      subst hq
      exact s5 i hi
    · simpa using s6
  · refine inv_flush h hd h0 w' _ (fun s => if s = src then [k] else []) ?_ s1 s2 ?_ s4 ?_ ?_
    · intro s e
      by_cases hse : s = src ∧ e = dst
      · obtain ⟨rfl, rfl⟩ := hse
        simp [hc]
      · rw [if_neg hse]
        by_cases he : e = dst
        · have : s ≠ src := fun hs => hse ⟨hs, he⟩
          simp [he, this]
        · simp [he]
    · intro i hi
      apply s3
      rcases hi with hi | ⟨q, hq, hi⟩
      · exact Or.inl hi
      · simp [Ne.symm hs] at hq
    · rintro i ⟨q, hq, hi⟩
      simp [Ne.symm hs] at hq
    · have hx : execTags [k] = [] := by
        apply execTags_nil
        intro q hq r hqr
        simp only [List.mem_singleton] at hq
        subst hq hqr
        exact hs hk.1
      rw [hx] at s6
      simpa [Ne.symm hs, execTags] using s6

theorem inv_complete (h : Inv W isW m c calls subs) (h0 : isW 0 = false) {d : Nat} (hd : isW d = true) (i : Nat) :
    Inv W isW m (c.flush d ((c.worker d).complete i)) calls subs := by
  obtain ⟨s1, s2, s3, s4, s5⟩ := complete_spec h.ok (h.worker d hd) i
  refine inv_flush h hd h0 _ c.chan (fun _ => []) (by simp) s1 ?_ ?_ ?_ (by simp) ?_
  · intro r hr
    rw [s4] at hr
    exact ready_grow ⟨s2, s3⟩ (h.pend d hd r hr)
  · intro j hj
    simp only [List.not_mem_nil, false_and, exists_false, or_false] at hj
    exact s2 j hj
  · rw [s3]; exact fun j hj => hj
  · rw [s4, s5]; simp [execTags]

/-- The values put contain no references. -/
def PlainAct : Act → Prop
  | .put v => refs v = []
  | _ => True

theorem inv_step (hW : W.Plain) (h0 : isW 0 = false) (h : Inv W isW m c calls subs) {a : Act} (ha : PlainAct a)
    {c' : Cluster} (hs : c.step W isW a = some (.ok c')) :
    ∃ l, Inv W isW m c' (calls ++ callOf c.root.nextId a) (subs ++ l) ∧ c'.root.nextId = nextOf c.root.nextId a := by
  cases a with
  | put v =>
    simp only [Cluster.step] at hs
    split at hs
    · simp at hs
    · rename_i hw
      simp only [Option.some.injEq, Except.ok.injEq] at hs
      subst hs
      refine ⟨[], ?_, rfl⟩
      rw [List.append_nil]
      exact inv_put h v ha (by simpa using hw)
  | submit fn args n dest =>
    simp only [Cluster.step] at hs
    split at hs
    · simp at hs
    · rename_i hw
      simp only [Bool.or_eq_true, Bool.not_eq_true', not_or, Bool.not_eq_false, Bool.not_eq_true, Option.isSome_eq_false_iff,
        Option.isNone_iff_eq_none] at hw
      split at hs
      · simp at hs
      · rename_i r1 l1 p1
        split at hs
        · simp at hs
        · rename_i r2 l2 p2
          simp only [Option.some.injEq, Except.ok.injEq] at hs
          subst hs
          refine ⟨_, inv_submit h hW (n := n) hw.1.1 hw.1.2 h0 ?_ p1 p2, ?_⟩
          · intro hc; simp [hc] at hw
          · have := ((pushRef_spec p1).trans (pushList_spec args p2)).same
            simp only [Root.genOuts, nextOf]
            rw [this]
  | get ids =>
    simp only [Cluster.step] at hs
    split at hs
    · simp at hs
    · rename_i hw
      have hw' : c.root.waiting = none := by simpa using hw
      split at hs
      · rename_i he
        simp only [Option.some.injEq, Except.ok.injEq] at hs
        subst hs
        refine ⟨[], ?_, rfl⟩
        simp only [callOf, List.append_nil]
        refine inv_getNow h ids hw' ?_
        intro i hi hn
        rw [List.isEmpty_iff, List.filter_eq_nil_iff] at he
        have := he i hi
        simp [hn] at this
      · rename_i he
        split at hs
        · rename_i hall
          simp only [Option.some.injEq, Except.ok.injEq] at hs
          subst hs
          refine ⟨[], ?_, rfl⟩
          simp only [callOf, List.append_nil]
          refine inv_getWait h h0 ids hw' (by simpa using he) ?_
          intro i hi
          rw [List.all_eq_true] at hall
          exact Option.isSome_iff_ne_none.1 (hall i hi)
        · simp at hs
  | reply src =>
    simp only [Cluster.step] at hs
    split at hs
    · rename_i wt id v t hw hc
      split at hs
      · rename_i hid
        simp only [Option.some.injEq, Except.ok.injEq] at hs
        have := inv_reply h h0 hw hc hid
        rw [hs] at this
        refine ⟨[], by simpa [callOf] using this, ?_⟩
        rw [← hs]
        simp only [nextOf]
        split <;> rfl
      · simp at hs
    · simp at hs
  | deliver src dst =>
    simp only [Cluster.step] at hs
    split at hs
    · rename_i hd
      split at hs
      · simp at hs
      · rename_i k t hc
        split at hs
        · simp at hs
        · rename_i w' hh
          simp only [Option.some.injEq, Except.ok.injEq] at hs
          subst hs
          refine ⟨[], ?_, rfl⟩
          simp only [callOf, List.append_nil]
          exact inv_deliver h h0 hd hc hh
    · simp at hs
  | complete w i =>
    simp only [Cluster.step] at hs
    split at hs
    · rename_i hd
      simp only [Option.some.injEq, Except.ok.injEq] at hs
      subst hs
      refine ⟨[], ?_, rfl⟩
      simp only [callOf, List.append_nil]
      exact inv_complete h h0 hd.1 i
    · simp at hs

theorem inv_run (hW : W.Plain) (h0 : isW 0 = false) : ∀ (acts : List Act) {c c' : Cluster} {calls : List Call}
    {subs : List Sub}, Inv W isW m c calls subs → (∀ a ∈ acts, PlainAct a) → c.run W isW acts = some c' →
    ∃ l, Inv W isW m c' (calls ++ callsOf c.root.nextId acts) (subs ++ l)
  | [], c, c', calls, subs, h, _, hr => by
    simp only [Cluster.run, Option.some.injEq] at hr
    subst hr
    exact ⟨[], by simpa [callsOf] using h⟩
  | a :: as, c, c', calls, subs, h, ha, hr => by
    simp only [Cluster.run] at hr
    split at hr
    · rename_i c1 hs
      obtain ⟨l1, h1, hn⟩ := inv_step hW h0 h (ha a (by simp)) hs
      obtain ⟨l2, h2⟩ := inv_run hW h0 as h1 (fun b hb => ha b (List.mem_cons_of_mem _ hb)) hr
      rw [hn] at h2
      exact ⟨l1 ++ l2, by simpa [callsOf, List.append_assoc] using h2⟩
    · simp at hr

end Verif.Cluster
