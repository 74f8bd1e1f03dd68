import Verif.Lemmas.ClusterInv

/-! Steps of the main process preserve the invariant. -/
namespace Verif.Cluster
open Verif.Spec
open Verif.Worker

variable {W : World} {isW : Nat → Bool} {m : Nat} {c : Cluster} {calls : List Call} {subs : List Sub}

theorem meaning_append (W : World) (a b : List Call) : meaning W (a ++ b) = b.foldl (evalCall W) (meaning W a) := by
  simp [meaning]

theorem resOK_ext {D D' : Nat → Option Val} {own own' : Nat → Option Nat} {N : Nat} (hD : ∀ i, i < N → D' i = D i)
    (hdom : ∀ i, D i ≠ none → i < N) (hown : ∀ i, i < N → own' i = own i) {pre : List (List Nat × GetResult)}
    {ids : List Nat} {res : GetResult} (h : ResOK D own pre ids res) : ResOK D' own' pre ids res := by
  cases res with
  | values vs =>
    obtain ⟨h1, h2⟩ := h
    have hb : ∀ i ∈ ids, i < N := by
      intro i hi
      apply hdom
      have : D i ∈ ids.map D := List.mem_map_of_mem hi
      rw [h1, List.mem_map] at this
      obtain ⟨v, -, hv⟩ := this
      rw [← hv]; simp
    refine ⟨?_, ?_⟩
    · rw [← h1]
      exact List.map_congr_left (fun i hi => hD i (hb i hi))
    · intro i hi ho hp e
      rw [hD i (hb i hi)]
      exact h2 i hi (by rw [← hown i (hb i hi)]; exact ho) hp e
  | raised e =>
    obtain ⟨i, hi, he⟩ := h
    exact ⟨i, hi, by rw [hD i (hdom i (by rw [he]; simp))]; exact he⟩

theorem inv_put (h : Inv W isW m c calls subs) (v : Val) (hv : refs v = []) (hw : c.root.waiting = none) :
    Inv W isW m { c with root := { c.root with store := upd c.root.store c.root.nextId v, nextId := c.root.nextId + 1 } }
      (calls ++ [.put c.root.nextId v]) subs := by
  have hM : meaning W (calls ++ [.put c.root.nextId v]) =
      fun i => if i = c.root.nextId then some v else meaning W calls i := by
    rw [meaning_append]; rfl
  have hlt : ∀ i, i < c.root.nextId → meaning W (calls ++ [.put c.root.nextId v]) i = meaning W calls i := by
    intro i hi; rw [hM]; simp only; rw [if_neg]; omega
  have hown : ∀ i, c.root.owner i ≠ none → i < c.root.nextId := by
    intro i hi
    obtain ⟨o, ho⟩ := Option.ne_none_iff_exists'.1 hi
    exact (h.own i o ho).1
  have hext : Ext (ctx W m c calls subs)
      (ctx W m { c with root := { c.root with store := upd c.root.store c.root.nextId v, nextId := c.root.nextId + 1 } }
        (calls ++ [.put c.root.nextId v]) subs) c.root.nextId :=
    ⟨rfl, rfl, hlt, h.dom, fun i o ho => ho, ⟨[], by simp [ctx]⟩, h.bound⟩
  constructor
  case ok =>
    constructor
    · intro i u hu
      simp only [ctx, hM] at hu
      split at hu
      · simp only [Option.some.injEq] at hu; rw [← hu]; exact hv
      · exact h.ok.closed i u hu
    · intro s hs r hr p hp
      rw [hext.result hs] at hr
      exact hext.le (h.ok.value s hs r hr p hp)
    · exact h.ok.own
  case dom =>
    intro i hi
    simp only
    rw [hM] at hi
    simp only at hi
    split at hi
    · omega
    · have := h.dom i hi; omega
  case own =>
    intro i o ho
    obtain ⟨h1, h2⟩ := h.own i o ho
    exact ⟨Nat.lt_succ_of_lt h1, h2⟩
  case bound =>
    intro s hs
    obtain ⟨b1, b2, b3⟩ := h.bound s hs
    exact ⟨fun i hi => Nat.lt_succ_of_lt (b1 i hi), Nat.lt_succ_of_lt b2, fun i hi => Nat.lt_succ_of_lt (b3 i hi)⟩
  case early => exact h.early
  case submits =>
    rw [Spec.submits, List.filterMap_append]
    have := h.submits
    rw [Spec.submits] at this
    rw [this]; simp
  case tag => exact h.tag
  case rstore =>
    intro i u hu
    simp only [upd] at hu
    rw [hM]
    simp only
    split at hu
    · rename_i hi; rw [if_pos hi]; exact hu
    · rename_i hi; rw [if_neg hi]; exact h.rstore i u hu
  case worker => exact fun d hd => wi_ext hext (h.worker d hd)
  case outbox => exact h.outbox
  case pend => exact fun d hd r hr => ready_ext hext (h.pend d hd r hr)
  case chan => exact fun s d k hk => msgOK_ext hext (h.chan s d k hk)
  case fifo => exact h.fifo
  case sentR => exact h.sentR
  case dataN => exact h.dataN
  case dataS =>
    intro s hs i hi
    obtain ⟨h1, h2⟩ := h.dataS s hs i hi
    refine ⟨h1, ?_⟩
    have ho := (h.dataOwner hi).1
    have := hown i (by rw [ho]; simp)
    simp only [upd]
    rw [if_neg (by omega)]; exact h2
  case rootS =>
    intro i o hst ho
    have := hown i (by rw [ho]; simp)
    simp only [upd] at hst
    rw [if_neg (by omega)] at hst
    exact h.rootS i o hst ho
  case wait => intro wt hwt; rw [hw] at hwt; simp at hwt
  case fetched =>
    intro i hst ho
    have := hown i ho
    simp only [upd] at hst
    rw [if_neg (by omega)] at hst
    exact h.fetched i hst ho
  case results =>
    intro pre ids res post he
    exact resOK_ext hlt h.dom (fun _ _ => rfl) (h.results pre ids res post he)
  case tags => exact h.tags

theorem informs_of_brings {k : Msg} {i : Nat} (h : i ∈ brings k) : i ∈ informs k := by
  cases k with
  | putData id v => exact h
  | _ => simp [brings] at h

theorem execTags_append (a b : List Msg) : execTags (a ++ b) = execTags a ++ execTags b := by simp [execTags]

theorem execTags_nil {l : List Msg} (h : ∀ k ∈ l, ∀ r, k ≠ .execute r) : execTags l = [] := by
  rw [execTags, List.filterMap_eq_nil_iff]
  intro k hk
  cases k with
  | execute r => exact absurd rfl (h _ hk r)
  | _ => rfl

theorem tagsFor_append (subs : List Sub) (s : Sub) (d : Nat) :
    tagsFor (subs ++ [s]) d = tagsFor subs d ++ (if s.dest = d then [subs.length] else []) := by
  simp only [tagsFor, List.length_append, List.length_cons, List.length_nil, List.range_succ, List.filter_append]
  congr 1
  · apply List.filter_congr
    intro t ht
    rw [List.mem_range] at ht
    rw [List.getElem?_append_left ht]
  · simp only [List.filter_cons, List.filter_nil]
    rw [List.getElem?_append_right (Nat.le_refl _)]
    by_cases hs : s.dest = d <;> simp [hs]

theorem inv_submit (h : Inv W isW m c calls subs) (hW : W.Plain) {fn : Nat} {args : List Val} {n dest : Nat}
    (hw : c.root.waiting = none) (hdest : isW dest = true) (h0 : isW 0 = false) (hfn : c.root.store fn ≠ none)
    {r1 r2 : Root} {l1 l2 : List (Nat × Msg)}
    (p1 : c.root.pushRef dest fn = some (r1, l1)) (p2 : r1.pushList dest args = some (r2, l2)) :
    Inv W isW m { c with
        root := { (r2.genOuts dest n).2 with nextTag := (r2.genOuts dest n).2.nextTag + 1 }
        chan := sendAll c.chan 0 (l1 ++ l2 ++
          [(dest, .execute ⟨(r2.genOuts dest n).2.nextTag, .fn fn, args, (r2.genOuts dest n).1⟩)]) }
      (calls ++ [.submit fn args ((List.range n).map (c.root.nextId + ·))])
      (subs ++ [⟨fn, args, (List.range n).map (c.root.nextId + ·), dest⟩]) := by
  have hd0 : dest ≠ 0 := by rintro rfl; rw [h0] at hdest; simp at hdest
  have hP := (pushRef_spec p1).trans (pushList_spec args p2)
  generalize hl : l1 ++ l2 = l at hP ⊢
  have hr2 := hP.same
  -- the new root
  have hid : r2.nextId = c.root.nextId := by rw [hr2]
  have htag : r2.nextTag = c.root.nextTag := by rw [hr2]
  have hstore : r2.store = c.root.store := by rw [hr2]
  have howner : r2.owner = c.root.owner := by rw [hr2]
  have hwait : r2.waiting = none := by rw [hr2]; exact hw
  have hres : r2.results = c.root.results := by rw [hr2]
  simp only [Root.genOuts, hid, htag, hstore, howner, hwait, hres]
  generalize houts : (List.range n).map (c.root.nextId + ·) = outs
  have hon : ∀ o ∈ outs, c.root.nextId ≤ o ∧ o < c.root.nextId + n := by
    intro o ho
    rw [← houts, List.mem_map] at ho
    obtain ⟨k, hk, rfl⟩ := ho
    rw [List.mem_range] at hk
    omega
  have hnd : outs.Nodup := by
    rw [← houts]
    exact List.Nodup.map (fun a b hab => by simpa using hab) List.nodup_range
  have hownlt : ∀ i, c.root.owner i ≠ none → i < c.root.nextId := by
    intro i hi
    obtain ⟨o, ho⟩ := Option.ne_none_iff_exists'.1 hi
    exact (h.own i o ho).1
  have hstlt : ∀ i, c.root.store i ≠ none → i < c.root.nextId := by
    intro i hi
    obtain ⟨v, hv⟩ := Option.ne_none_iff_exists'.1 hi
    exact h.dom i (by rw [h.rstore i v hv]; simp)
  have hrefs : ∀ i ∈ refsList args, i < c.root.nextId := by
    intro i hi
    rcases hP.known i (by simp [hi]) with ⟨k, -⟩ | ⟨-, o, k, -⟩
    · exact hstlt i k
    · exact hownlt i (by rw [k]; simp)
  have hfnlt : fn < c.root.nextId := hstlt fn hfn
  -- the new meaning
  generalize hD : meaning W (calls ++ [.submit fn args outs]) = D'
  have hM : D' = match taskResult W (meaning W calls) fn args with
      | some r => extend (meaning W calls) (outputValues outs r)
      | none => meaning W calls := by
    rw [← hD, meaning_append]; rfl
  have hlt : ∀ i, i < c.root.nextId → D' i = meaning W calls i := by
    intro i hi
    rw [hM]
    split
    · rename_i r _
      apply extend_other
      intro p hp hpi
      have := (outputValues_fst outs r).subset (List.mem_map_of_mem hp)
      have := hon _ this
      omega
    · rfl
  have hres' : taskResult W D' fn args = taskResult W (meaning W calls) fn args :=
    taskResult_congr _ _ _ _ _ (fun i hi => hlt i (hrefs i hi)) (hlt fn hfnlt)
  generalize hs : (⟨fn, args, outs, dest⟩ : Sub) = s
  generalize hcc : ({ c with
      root := { store := c.root.store, owner := fun i => if i ∈ outs then some dest else c.root.owner i, sent := r2.sent,
                nextId := c.root.nextId + n, nextTag := c.root.nextTag + 1, waiting := none, results := c.root.results }
      chan := sendAll c.chan 0 (l ++ [(dest, Msg.execute ⟨c.root.nextTag, .fn fn, args, outs⟩)]) } : Cluster) = c'
  have hctx : ctx W m c' (calls ++ [.submit fn args outs]) (subs ++ [s]) =
      ⟨W, D', fun i => if i ∈ outs then some dest else c.root.owner i, subs ++ [s], m⟩ := by
    rw [← hcc, ← hD]; rfl
  have hext : Ext (ctx W m c calls subs) (ctx W m c' (calls ++ [.submit fn args outs]) (subs ++ [s])) c.root.nextId := by
    rw [hctx]
    refine ⟨rfl, rfl, hlt, h.dom, ?_, ⟨[s], rfl⟩, h.bound⟩
    intro i o ho
    simp only
    rw [if_neg]
    · exact ho
    · intro hi
      have := hon i hi
      have := (h.own i o ho).1
      omega
  have hne : ∀ i v, D' i = some v → meaning W calls i = some v ∨
      ∃ r, taskResult W (meaning W calls) fn args = some r ∧ (i, v) ∈ outputValues outs r := by
    intro i v hv
    rw [hM] at hv
    cases hr : taskResult W (meaning W calls) fn args with
    | none => rw [hr] at hv; exact Or.inl hv
    | some r =>
      rw [hr] at hv
      rcases extend_cases _ _ _ _ hv with hc | hc
      · exact Or.inl hc
      · exact Or.inr ⟨r, rfl, hc⟩
  have hchan : ∀ a b, c'.chan a b = if a = 0 ∧ b = dest then
      c.chan 0 dest ++ (l.map (·.2) ++ [Msg.execute ⟨c.root.nextTag, .fn fn, args, outs⟩]) else c.chan a b := by
    intro a b
    rw [← hcc]
    simp only
    by_cases ha : a = 0
    · subst ha
      rw [sendAll_self]
      by_cases hb : b = dest
      · subst hb
        simp only [and_self, if_true, List.filter_append, List.map_append]
        congr 1
        congr 1
        · congr 1
          exact List.filter_eq_self.2 (fun p hp => by simp [(hP.msgs p hp).1])
        · simp
      · rw [if_neg (by simp [hb])]
        have : (l ++ [(dest, Msg.execute ⟨c.root.nextTag, .fn fn, args, outs⟩)]).filter (·.1 = b) = [] := by
          rw [List.filter_eq_nil_iff]
          intro p hp
          simp only [List.mem_append, List.mem_singleton] at hp
          have : p.1 = dest := by
            rcases hp with hp | rfl
            · exact (hP.msgs p hp).1
            · rfl
          simp only [this, decide_eq_true_eq]
          exact fun hc => hb hc.symm
        rw [this]; simp
    · rw [sendAll_other _ _ _ ha, if_neg (by simp [ha])]
  have hworker : c'.worker = c.worker := by rw [← hcc]
  have e1 : c'.root.store = c.root.store := by rw [← hcc]
  have e2 : c'.root.owner = fun i => if i ∈ outs then some dest else c.root.owner i := by rw [← hcc]
  have e3 : c'.root.sent = r2.sent := by rw [← hcc]
  have e4 : c'.root.nextId = c.root.nextId + n := by rw [← hcc]
  have e5 : c'.root.nextTag = c.root.nextTag + 1 := by rw [← hcc]
  have e6 : c'.root.waiting = none := by rw [← hcc]
  have e7 : c'.root.results = c.root.results := by rw [← hcc]
  have hbr : ∀ i, (i, dest) ∈ r2.sent → (i, dest) ∈ c.root.sent ∨ ∃ k ∈ l.map (·.2), i ∈ brings k := by
    intro i hi
    rw [hP.sent, List.mem_append, List.mem_reverse] at hi
    rcases hi with hi | hi
    · right
      simp only [keys, List.mem_filterMap] at hi
      obtain ⟨p, hp, hpe⟩ := hi
      refine ⟨p.2, List.mem_map_of_mem hp, ?_⟩
      rcases (hP.msgs p hp).2 with ⟨j, u, hj, -⟩ | ⟨j, o, hj, -⟩
      · rw [hj] at hpe ⊢
        simp only [Option.some.injEq, Prod.mk.injEq] at hpe
        simp [brings, hpe.1]
      · rw [hj] at hpe; simp at hpe
    · exact Or.inl hi
  have hnochan0 : ∀ a, c'.chan a 0 = c.chan a 0 := by
    intro a; rw [hchan, if_neg (by simp [Ne.symm hd0])]
  have hown' : ∀ i, i < c.root.nextId → c'.root.owner i = c.root.owner i := by
    intro i hi
    rw [e2]
    simp only
    rw [if_neg]
    intro hc
    have := hon i hc
    omega
  have hbound : ∀ q ∈ subs ++ [s], Bounded (c.root.nextId + n) q := by
    intro q hq
    rw [List.mem_append, List.mem_singleton] at hq
    rcases hq with hq | rfl
    · obtain ⟨b1, b2, b3⟩ := h.bound q hq
      exact ⟨fun i hi => Nat.lt_add_right n (b1 i hi), Nat.lt_add_right n b2, fun i hi => Nat.lt_add_right n (b3 i hi)⟩
    · rw [← hs]
      exact ⟨fun i hi => Nat.lt_add_right n (hrefs i hi), Nat.lt_add_right n hfnlt, fun i hi => (hon i hi).2⟩
  have hget : ∀ (t : Nat) (q : Sub), (subs ++ [s])[t]? = some q → subs[t]? = some q ∨ (t = subs.length ∧ q = s) := by
    intro t q hq
    rw [List.getElem?_append] at hq
    split at hq
    · exact Or.inl hq
    · rename_i ht
      have : t = subs.length := by
        by_cases hc : t - subs.length = 0
        · omega
        · obtain ⟨k, hk⟩ := Nat.exists_eq_succ_of_ne_zero hc
          rw [hk] at hq
          simp at hq
      subst this
      simp only [Nat.sub_self, List.getElem?_cons_zero, Option.some.injEq] at hq
      exact Or.inr ⟨rfl, hq.symm⟩
  have hlen : (subs ++ [s])[subs.length]? = some s := by simp
  have hcorr : Corr (ctx W m c' (calls ++ [.submit fn args outs]) (subs ++ [s])) dest
      ⟨c.root.nextTag, .fn fn, args, outs⟩ := by
    rw [hctx]
    refine ⟨s, ?_, by rw [← hs], by rw [← hs], by rw [← hs], by rw [← hs], ?_, ?_⟩
    · simp only [h.tag]; exact hlen
    · rw [← hs]; exact fun i hi => hi
    · rw [← hs]; exact fun i hi => Or.inl hi
  constructor
  case ok =>
    rw [hctx]
    constructor
    · intro i v hv
      rcases hne i v hv with hc | ⟨r, hr, hc⟩
      · exact h.ok.closed i v hc
      · refine outputValues_plain outs r ?_ (i, v) hc
        rintro u rfl
        exact taskResult_plain hW h.ok.closed hr
    · intro q hq r hr p hp
      simp only [List.mem_append, List.mem_singleton] at hq
      rcases hq with hq | rfl
      · have hr2 := hext.result (s := q) hq
        rw [hctx] at hr2
        rw [hr2] at hr
        have := hext.le (h.ok.value q hq r hr p hp)
        rw [hctx] at this
        exact this
      · rw [← hs] at hr hp
        simp only at hr hp ⊢
        rw [hres'] at hr
        rw [hM, hr]
        exact extend_mem _ _ ((outputValues_fst outs r).nodup hnd) p hp
    · intro q hq o ho
      simp only [List.mem_append, List.mem_singleton] at hq
      simp only
      rcases hq with hq | rfl
      · rw [if_neg]
        · exact h.ok.own q hq o ho
        · intro hc
          have h1 := hon o hc
          have h2 := (h.bound q hq).2.2 o ho
          omega
      · rw [← hs] at ho ⊢
        exact if_pos ho
  case dom =>
    intro i hi
    rw [hD] at hi
    rw [e4]
    obtain ⟨v, hv⟩ := Option.ne_none_iff_exists'.1 hi
    rcases hne i v hv with hc | ⟨r, hr, hc⟩
    · have := h.dom i (by rw [hc]; simp); omega
    · exact (hon i ((outputValues_fst outs r).subset (List.mem_map_of_mem (f := Prod.fst) hc))).2
  case own =>
    intro i o ho
    rw [e2] at ho
    rw [e4]
    simp only at ho
    split at ho
    · rename_i hi
      simp only [Option.some.injEq] at ho
      subst ho
      exact ⟨(hon i hi).2, hdest, subs.length, s, hlen, by rw [← hs]; exact hi, by rw [← hs]⟩
    · obtain ⟨h1, h2, t, q, h3, h4⟩ := h.own i o ho
      exact ⟨by omega, h2, t, q, hext.sub h3, h4⟩
  case bound => rw [e4]; exact hbound
  case early =>
    intro t q hq
    rcases hget t q hq with hq1 | ⟨rfl, rfl⟩
    · refine ⟨(h.early t q hq1).1, ?_⟩
      intro i hi t' q' hq' hi'
      rcases hget t' q' hq' with hq' | ⟨rfl, rfl⟩
      · exact (h.early t q hq1).2 i hi t' q' hq' hi'
      · rw [← hs] at hi'
        have h1 := (h.bound q (List.mem_of_getElem? hq1)).1 i hi
        have h2 := hon i hi'
        omega
    · refine ⟨by rw [← hs]; exact hdest, ?_⟩
      intro i hi t' q' hq' hi'
      rcases hget t' q' hq' with hq' | ⟨rfl, rfl⟩
      · exact (List.getElem?_eq_some_iff.1 hq').1
      · rw [← hs] at hi hi'
        have h1 := hrefs i hi
        have h2 := hon i hi'
        omega
  case submits =>
    rw [Spec.submits, List.filterMap_append]
    have := h.submits
    rw [Spec.submits] at this
    rw [this]
    simp [← hs]
  case tag => rw [e5, h.tag]; simp
  case rstore =>
    rw [hD, e1]
    intro i u hu
    rw [hlt i (hstlt i (by rw [hu]; simp))]
    exact h.rstore i u hu
  case worker => rw [hworker]; exact fun d hd => wi_ext hext (h.worker d hd)
  case outbox => rw [hworker]; exact h.outbox
  case pend => rw [hworker]; exact fun d hd r hr => ready_ext hext (h.pend d hd r hr)
  case chan =>
    intro a b k hk
    rw [hchan] at hk
    split at hk
    · rename_i hab
      obtain ⟨rfl, rfl⟩ := hab
      simp only [List.mem_append, List.mem_map, List.mem_singleton] at hk
      rcases hk with hk | ⟨p, hp, rfl⟩ | rfl
      · exact msgOK_ext hext (h.chan _ _ k hk)
      · rcases (hP.msgs p hp).2 with ⟨j, u, hj, hju⟩ | ⟨j, o, hj, -, hjo⟩
        · rw [hj]
          exact ⟨hext.le (h.rstore j u hju), hd0⟩
        · rw [hj]
          exact hext.own j o hjo
      · exact ⟨rfl, hcorr⟩
    · exact msgOK_ext hext (h.chan a b k hk)
  case fifo =>
    intro d hd
    rw [hworker, hchan]
    have hf := h.fifo d hd
    split
    · rename_i hab
      obtain ⟨-, rfl⟩ := hab
      apply okFrom_append _ hf
      apply okFrom_append
      · apply okFrom_plain
        intro k hk r hr
        rw [List.mem_map] at hk
        obtain ⟨p, hp, rfl⟩ := hk
        rcases (hP.msgs p hp).2 with ⟨j, u, hj, -⟩ | ⟨j, o, hj, -⟩
        · rw [hj] at hr; simp at hr
        · rw [hj] at hr; simp at hr
      · refine ⟨⟨?_, ?_⟩, trivial⟩
        · intro i hi
          rcases hP.known i (by simp at hi ⊢; exact Or.inr hi) with ⟨-, k⟩ | ⟨-, o, -, k⟩
          · rcases hbr i k with k | ⟨q, hq, k⟩
            · rcases h.sentR i d hd k with k | ⟨q, hq, k⟩
              · exact Or.inl (Or.inl (Or.inl k))
              · refine Or.inl (Or.inr ⟨q, hq, ?_⟩)
                exact informs_of_brings k
            · refine Or.inr ⟨q, hq, ?_⟩
              exact informs_of_brings k
          · exact Or.inr ⟨_, List.mem_map_of_mem k, by simp [informs]⟩
        · intro f hf
          simp only [Task.fn.injEq] at hf
          subst hf
          rcases hP.known fn (by simp) with ⟨-, k⟩ | ⟨k, -⟩
          · rcases hbr fn k with k | k
            · rcases h.sentR fn d hd k with k | k
              · exact Or.inl (Or.inl k)
              · exact Or.inl (Or.inr k)
            · exact Or.inr k
          · exact absurd k hfn
    · exact hf
  case sentR =>
    intro i d hd hi
    rw [e3] at hi
    rw [hworker, hchan]
    have old : (i, d) ∈ c.root.sent → (c.worker d).store i ≠ none ∨ ∃ k ∈ (if 0 = 0 ∧ d = dest then
      c.chan 0 dest ++ (l.map (·.2) ++ [Msg.execute ⟨c.root.nextTag, .fn fn, args, outs⟩]) else c.chan 0 d), i ∈ brings k := by
      intro hm
      rcases h.sentR i d hd hm with k | ⟨q, hq, k⟩
      · exact Or.inl k
      · right
        refine ⟨q, ?_, k⟩
        split
        · rename_i hdd
          obtain ⟨-, rfl⟩ := hdd
          exact List.mem_append_left _ hq
        · exact hq
    by_cases hdd : d = dest
    · subst hdd
      rcases hbr i hi with k | ⟨q, hq, k⟩
      · exact old k
      · right
        refine ⟨q, ?_, k⟩
        simp only [and_self, if_true]
        exact List.mem_append_right _ (List.mem_append_left _ hq)
    · apply old
      rw [hP.sent, List.mem_append, List.mem_reverse] at hi
      rcases hi with hi | hi
      · exfalso
        simp only [keys, List.mem_filterMap] at hi
        obtain ⟨p, hp, hpe⟩ := hi
        have hp1 := (hP.msgs p hp).1
        split at hpe
        · simp only [Option.some.injEq, Prod.mk.injEq] at hpe
          exact hdd (hpe.2.symm.trans hp1)
        · simp only [Option.some.injEq, Prod.mk.injEq] at hpe
          exact hdd (hpe.2.symm.trans hp1)
        · simp at hpe
      · exact hi
  case dataN => intro a; rw [hnochan0]; exact h.dataN a
  case dataS =>
    intro a ha i hi
    rw [hnochan0] at hi
    rw [hworker, e1]
    exact h.dataS a ha i hi
  case rootS =>
    intro i o hst ho
    rw [e1] at hst
    rw [hown' i (hstlt i hst)] at ho
    rw [hworker]
    exact h.rootS i o hst ho
  case wait => intro wt hwt; rw [e6] at hwt; simp at hwt
  case fetched =>
    intro i hst ho
    rw [e1] at hst
    rw [hown' i (hstlt i hst)] at ho
    rw [e7, e6]
    rcases h.fetched i hst ho with hc | ⟨wt, hc, -⟩
    · exact Or.inl hc
    · rw [hw] at hc; simp at hc
  case results =>
    intro pre ids res post he
    rw [e7] at he
    rw [hD]
    exact resOK_ext hlt h.dom hown' (h.results pre ids res post he)
  case tags =>
    intro d hd
    rw [hworker, tagsFor_append, hchan]
    have hT := h.tags d hd
    by_cases hdd : d = dest
    · subst hdd
      have hsd : s.dest = d := by rw [← hs]
      simp only [and_self, if_true, hsd]
      have hx : execTags (c.chan 0 d ++ (l.map (·.2) ++ [Msg.execute ⟨c.root.nextTag, .fn fn, args, outs⟩])) =
          execTags (c.chan 0 d) ++ [subs.length] := by
        rw [execTags_append, execTags_append, execTags_nil (l := l.map (·.2))]
        · simp [execTags, h.tag]
        · intro k hk r hr
          rw [List.mem_map] at hk
          obtain ⟨p, hp, rfl⟩ := hk
          rcases (hP.msgs p hp).2 with ⟨j, u, hj, -⟩ | ⟨j, o, hj, -⟩
          · rw [hj] at hr; simp at hr
          · rw [hj] at hr; simp at hr
      rw [hx, ← List.append_assoc]
      exact List.Perm.append_right _ hT
    · rw [if_neg (by simp [hdd]), if_neg]
      · simpa using hT
      · rw [← hs]; exact fun hc => hdd hc.symm

end Verif.Cluster
