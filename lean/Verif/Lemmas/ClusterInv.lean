import Verif.Lemmas.Meaning
import Verif.Lemmas.ClusterPush
import Mathlib.Data.List.Perm.Subperm
import Mathlib.Data.List.Nodup

/-! Invariant of the cluster relative to the sequential meaning of the calls made so far. -/
namespace Verif.Cluster
open Verif.Spec
open Verif.Worker

/-- The program context of a state. -/
def ctx (W : World) (m : Nat) (c : Cluster) (calls : List Call) (subs : List Sub) : Ctx :=
  ⟨W, meaning W calls, c.root.owner, subs, m⟩

/-- Data messages in a channel. -/
def dataIds (l : List Msg) : List Nat :=
  l.filterMap fun
    | .data id _ => some id
    | _ => none

/-- A result of `get` is right: `pre` are the earlier results. -/
def ResOK (D : Nat → Option Val) (own : Nat → Option Nat) (pre : List (List Nat × GetResult)) (ids : List Nat) :
    GetResult → Prop
  | .values vs => ids.map D = vs.map some ∧
      ∀ i ∈ ids, own i ≠ none → (∀ p ∈ pre, i ∉ p.1) → ∀ e, D i ≠ some (.exc e)
  | .raised e => ∃ i ∈ ids, D i = some (.exc e)

/-- A `get` in progress is consistent. -/
def WaitOK (D : Nat → Option Val) (r : Root) (wt : Waiting) : Prop :=
  ∃ got : List Nat, got.Nodup ∧ (∀ i ∈ got, i ∈ wt.remote) ∧ got.length + wt.missing = wt.remote.length ∧ 0 < wt.missing ∧
    (∀ i ∈ got, r.store i ≠ none) ∧ (∀ i ∈ wt.ids, r.store i ≠ none ∨ i ∈ wt.remote) ∧ (∀ i ∈ wt.remote, i ∈ wt.ids) ∧
    (∀ e, wt.failed = some e → ∃ i ∈ wt.ids, D i = some (.exc e)) ∧
    (∀ i ∈ got, ∀ e, D i = some (.exc e) → wt.failed ≠ none) ∧
    (∀ i ∈ wt.ids, r.owner i ≠ none → (∀ p ∈ r.results, i ∉ p.1) → i ∈ wt.remote) ∧
    (∀ i ∈ wt.remote, r.owner i ≠ none)

/-- Tags of the tasks submitted to a worker. -/
def tagsFor (subs : List Sub) (d : Nat) : List Nat :=
  (List.range subs.length).filter fun t => subs[t]?.any fun s => s.dest == d

/-- The invariant. -/
structure Inv (W : World) (isW : Nat → Bool) (m : Nat) (c : Cluster) (calls : List Call) (subs : List Sub) : Prop where
  ok : (ctx W m c calls subs).OK
  dom : ∀ i, meaning W calls i ≠ none → i < c.root.nextId
  own : ∀ (i o : Nat), c.root.owner i = some o → i < c.root.nextId ∧ isW o = true ∧
    ∃ (t : Nat) (s : Sub), subs[t]? = some s ∧ i ∈ s.outs ∧ s.dest = o
  bound : ∀ s ∈ subs, Bounded c.root.nextId s
  early : ∀ (t : Nat) (s : Sub), subs[t]? = some s → isW s.dest = true ∧ ∀ i ∈ refsList s.args, ∀ (t' : Nat) (s' : Sub),
    subs[t']? = some s' → i ∈ s'.outs → t' < t
  submits : submits calls = subs.map fun s => (s.fn, s.args, s.outs)
  tag : c.root.nextTag = subs.length
  rstore : Le c.root.store (meaning W calls)
  worker : ∀ d, isW d = true → WI (ctx W m c calls subs) d (c.worker d).sent (c.worker d)
  outbox : ∀ d, (c.worker d).outbox = []
  pend : ∀ d, isW d = true → ∀ r ∈ (c.worker d).pending, Ready (ctx W m c calls subs) d (c.worker d) r
  chan : ∀ s d, ∀ k ∈ c.chan s d, MsgOK (ctx W m c calls subs) s d k
  fifo : ∀ d, isW d = true → okFrom (fun i => (c.worker d).store i ≠ none ∨ (c.worker d).owner i ≠ none)
    (fun i => (c.worker d).store i ≠ none) (c.chan 0 d)
  sentR : ∀ (i d : Nat), isW d = true → (i, d) ∈ c.root.sent → (c.worker d).store i ≠ none ∨ ∃ k ∈ c.chan 0 d, i ∈ brings k
  dataN : ∀ s, (dataIds (c.chan s 0)).Nodup
  dataS : ∀ s, isW s = true → ∀ i ∈ dataIds (c.chan s 0), (i, 0) ∈ (c.worker s).sent ∧ c.root.store i = none
  rootS : ∀ (i o : Nat), c.root.store i ≠ none → c.root.owner i = some o → (i, 0) ∈ (c.worker o).sent
  wait : ∀ wt, c.root.waiting = some wt → WaitOK (meaning W calls) c.root wt
  fetched : ∀ i, c.root.store i ≠ none → c.root.owner i ≠ none →
    (∃ p ∈ c.root.results, i ∈ p.1) ∨ ∃ wt, c.root.waiting = some wt ∧ i ∈ wt.ids
  results : ∀ pre ids res post, c.root.results = pre ++ (ids, res) :: post →
    ResOK (meaning W calls) c.root.owner pre ids res
  tags : ∀ d, isW d = true →
    (tags (c.worker d).log ++ tags (c.worker d).pending ++ execTags (c.chan 0 d)).Perm (tagsFor subs d)

theorem mem_dataIds {l : List Msg} {i : Nat} : i ∈ dataIds l ↔ ∃ v, Msg.data i v ∈ l := by
  simp only [dataIds, List.mem_filterMap]
  constructor
  · rintro ⟨k, hk, h⟩
    cases k with
    | data id v => simp only [Option.some.injEq] at h; subst h; exact ⟨v, hk⟩
    | _ => simp at h
  · rintro ⟨v, hk⟩
    exact ⟨_, hk, rfl⟩

theorem inv_init (W : World) (isW : Nat → Bool) (m : Nat) : Inv W isW m (Cluster.init m) [] [] := by
  constructor
  case ok =>
    constructor
    · intro i v h; simp [ctx, meaning] at h
    · intro s hs; simp [ctx] at hs
    · intro s hs; simp [ctx] at hs
  case worker =>
    intro d _
    constructor <;> simp [Cluster.init, Worker.init, Le, ctx, keys]
  all_goals simp [Cluster.init, Worker.init, meaning, Spec.submits, Le, okFrom, dataIds, tagsFor, Verif.Worker.tags, execTags]

/-- A data message that is received belongs to the owner of the reference. -/
theorem Inv.dataOwner {W : World} {isW : Nat → Bool} {m : Nat} {c : Cluster} {calls : List Call} {subs : List Sub}
    (h : Inv W isW m c calls subs) {s i : Nat} (hi : i ∈ dataIds (c.chan s 0)) : c.root.owner i = some s ∧ isW s = true := by
  obtain ⟨v, hv⟩ := mem_dataIds.1 hi
  have := h.chan s 0 _ hv
  exact ⟨this.2.2, (h.own i s this.2.2).2.1⟩

/-! ### Steps of the workers -/

theorem inv_flush {W : World} {isW : Nat → Bool} {m : Nat} {c : Cluster} {calls : List Call} {subs : List Sub}
    (h : Inv W isW m c calls subs) {d : Nat} (hd : isW d = true) (h0 : isW 0 = false) (w' : Worker)
    (chan' : Nat → Nat → List Msg) (gone : Nat → List Msg)
    (hchan : ∀ s e, c.chan s e = (if e = d then gone s else []) ++ chan' s e)
    (hw : WI (ctx W m c calls subs) d (c.worker d).sent w')
    (hp : ∀ r ∈ w'.pending, Ready (ctx W m c calls subs) d w' r)
    (hs : ∀ i, (c.worker d).store i ≠ none ∨ (∃ k ∈ gone 0, i ∈ brings k) → w'.store i ≠ none)
    (ho : ∀ i, (c.worker d).owner i ≠ none → w'.owner i ≠ none)
    (hi : ∀ i, (∃ k ∈ gone 0, i ∈ informs k) → w'.store i ≠ none ∨ w'.owner i ≠ none)
    (ht : (tags w'.log ++ tags w'.pending).Perm (tags (c.worker d).log ++ tags (c.worker d).pending ++ execTags (gone 0))) :
    Inv W isW m ({ c with chan := chan' }.flush d w') calls subs := by
  have hd0 : d ≠ 0 := by rintro rfl; rw [h0] at hd; simp at hd
  have hsame : ∀ s e, e ≠ d → chan' s e = c.chan s e := by
    intro s e he; rw [hchan s e]; simp [he]
  have hsub : ∀ s e k, k ∈ chan' s e → k ∈ c.chan s e := by
    intro s e k hk; rw [hchan s e]; exact List.mem_append_right _ hk
  have hnew : ∀ p ∈ w'.outbox, OutOK (ctx W m c calls subs) d p := hw.out
  have hfl0 : ∀ e, ({ c with chan := chan' }.flush d w').chan 0 e = chan' 0 e := by
    intro e
    simp only [Cluster.flush]
    rw [sendAll_other _ _ _ (Ne.symm hd0)]
  have hwk : ∀ e, e ≠ d → ({ c with chan := chan' }.flush d w').worker e = c.worker e := by
    intro e he; simp [Cluster.flush, he]
  have hwd : ({ c with chan := chan' }.flush d w').worker d = { w' with outbox := [] } := by simp [Cluster.flush]
  have hdata : ∀ e, e ≠ d → dataIds (({ c with chan := chan' }.flush d w').chan e 0) = dataIds (c.chan e 0) := by
    intro e he
    simp only [Cluster.flush]
    rw [sendAll_other _ _ _ he, hsame e 0 (Ne.symm hd0)]
  have hdd : ({ c with chan := chan' }.flush d w').chan d 0 = c.chan d 0 ++ (w'.outbox.filter (·.1 = 0)).map (·.2) := by
    simp only [Cluster.flush]
    rw [sendAll_self, hsame d 0 (Ne.symm hd0)]
  -- the data sent to the main process
  have hkeys : ∀ l : List (Nat × Msg), (∀ p ∈ l, OutOK (ctx W m c calls subs) d p) →
      dataIds ((l.filter (·.1 = 0)).map (·.2)) = (keys l).filterMap fun q => if q.2 = 0 then some q.1 else none := by
    intro l hl
    induction l with
    | nil => rfl
    | cons p l ih =>
      have ih := ih (fun q hq => hl q (List.mem_cons_of_mem _ hq))
      obtain ⟨a, k⟩ := p
      have hk := hl (a, k) (by simp)
      by_cases ha : a = 0
      · subst ha
        cases k with
        | data id v => simp only [dataIds, keys] at ih ⊢; simp [ih]
        | putData id v => exact absurd rfl hk.2.1
        | get _ _ _ => simp only [dataIds, keys] at ih ⊢; simp [ih]
        | taskDone _ => simp only [dataIds, keys] at ih ⊢; simp [ih]
        | execute _ => exact absurd hk id
        | putOwner _ _ => exact absurd hk id
        | actorCreate _ _ => exact absurd hk id
        | actorExecute _ _ _ => exact absurd hk id
      · cases k with
        | data id v => exact absurd hk.2.1 ha
        | putData id v => simp only [dataIds, keys] at ih ⊢; simp [ih, ha]
        | get _ _ _ => simp only [dataIds, keys] at ih ⊢; simp [ih, ha]
        | taskDone _ => simp only [dataIds, keys] at ih ⊢; simp [ih, ha]
        | execute _ => exact absurd hk id
        | putOwner _ _ => exact absurd hk id
        | actorCreate _ _ => exact absurd hk id
        | actorExecute _ _ _ => exact absurd hk id
  have hfresh : ∀ i, i ∈ dataIds ((w'.outbox.filter (·.1 = 0)).map (·.2)) → (i, 0) ∈ w'.sent ∧ (i, 0) ∉ (c.worker d).sent := by
    intro i hi
    rw [hkeys _ hnew, List.mem_filterMap] at hi
    obtain ⟨q, hq, hqe⟩ := hi
    split at hqe
    · rename_i hq0
      simp only [Option.some.injEq] at hqe
      have hqq : q = (i, 0) := Prod.ext hqe hq0
      subst hqq
      have hn := hw.nodup
      rw [hw.sent] at hn ⊢
      rw [List.nodup_append] at hn
      exact ⟨List.mem_append_left _ (List.mem_reverse.2 hq), fun hc => hn.2.2 _ (List.mem_reverse.2 hq) _ hc rfl⟩
    · simp at hqe
  have hsent : ∀ q ∈ (c.worker d).sent, q ∈ w'.sent := by
    intro q hq; rw [hw.sent]; exact List.mem_append_right _ hq
  constructor
  case ok => exact h.ok
  case dom => exact h.dom
  case own => exact h.own
  case bound => exact h.bound
  case early => exact h.early
  case submits => exact h.submits
  case tag => exact h.tag
  case rstore => exact h.rstore
  case wait => exact h.wait
  case fetched => exact h.fetched
  case results => exact h.results
  case worker =>
    intro e he
    by_cases hed : e = d
    · subst hed
      rw [hwd]
      exact ⟨hw.rank, hw.monitor, hw.store, hw.owner, hw.nb, hw.b, hw.act, hw.run, hw.log, by simp, by simp [keys], hw.nodup⟩
    · rw [hwk e hed]; exact h.worker e he
  case outbox =>
    intro e
    by_cases hed : e = d
    · subst hed; rw [hwd]
    · rw [hwk e hed]; exact h.outbox e
  case pend =>
    intro e he r hr
    by_cases hed : e = d
    · subst hed
      rw [hwd] at hr ⊢
      exact ready_grow (w := w') ⟨fun i hi => hi, rfl⟩ (hp r hr)
    · rw [hwk e hed] at hr ⊢; exact h.pend e he r hr
  case chan =>
    intro s e k hk
    simp only [Cluster.flush] at hk
    rcases mem_sendAll hk with hk1 | ⟨hsd, hk1⟩
    · exact h.chan s e k (hsub s e k hk1)
    · have hok := hnew _ hk1
      subst hsd
      cases k with
      | get src id b =>
        refine ⟨hok.1, hok.2.2.1, ?_⟩
        rw [hok.2.1]
        simp [hd0]
      | putData id v => exact ⟨hok.1, hok.2.1⟩
      | data id v => exact ⟨hok.1, hok.2.1, hok.2.2⟩
      | taskDone ids => exact hok
      | execute _ => exact absurd hok id
      | putOwner _ _ => exact absurd hok id
      | actorCreate _ _ => exact absurd hok id
      | actorExecute _ _ _ => exact absurd hok id
  case fifo =>
    intro e he
    rw [hfl0]
    have hf := h.fifo e he
    by_cases hed : e = d
    · subst hed
      rw [hwd]
      simp only
      rw [hchan 0 e, if_pos rfl] at hf
      -- drop the messages received
      have drop : ∀ (a b : List Msg) (K S : Nat → Prop), okFrom K S (a ++ b) →
          okFrom (fun i => K i ∨ ∃ k ∈ a, i ∈ informs k) (fun i => S i ∨ ∃ k ∈ a, i ∈ brings k) b := by
        intro a
        induction a with
        | nil => intro b K S hb; exact okFrom_mono b (fun i hi => Or.inl hi) (fun i hi => Or.inl hi) hb
        | cons k a ih =>
          intro b K S hb
          refine okFrom_mono b ?_ ?_ (ih b _ _ hb.2)
          · rintro i ((hi | hi) | ⟨k', hk', hi⟩)
            · exact Or.inl hi
            · exact Or.inr ⟨k, by simp, hi⟩
            · exact Or.inr ⟨k', by simp [hk'], hi⟩
          · rintro i ((hi | hi) | ⟨k', hk', hi⟩)
            · exact Or.inl hi
            · exact Or.inr ⟨k, by simp, hi⟩
            · exact Or.inr ⟨k', by simp [hk'], hi⟩
      refine okFrom_mono _ ?_ ?_ (drop _ _ _ _ hf)
      · rintro i ((hi' | hi') | hi')
        · exact Or.inl (hs i (Or.inl hi'))
        · exact Or.inr (ho i hi')
        · exact hi i hi'
      · exact hs
    · rw [hwk e hed, hsame 0 e hed]; exact hf
  case sentR =>
    intro i e he hmem
    rw [hfl0]
    by_cases hed : e = d
    · subst hed
      rw [hwd]
      simp only
      rcases h.sentR i e he hmem with hc | ⟨k, hk, hc⟩
      · exact Or.inl (hs i (Or.inl hc))
      · rw [hchan 0 e, if_pos rfl, List.mem_append] at hk
        rcases hk with hk | hk
        · exact Or.inl (hs i (Or.inr ⟨k, hk, hc⟩))
        · exact Or.inr ⟨k, hk, hc⟩
    · rw [hwk e hed, hsame 0 e hed]; exact h.sentR i e he hmem
  case dataN =>
    intro e
    by_cases hed : e = d
    · subst hed
      rw [hdd]
      simp only [dataIds, List.filterMap_append]
      rw [List.nodup_append]
      refine ⟨h.dataN e, ?_, ?_⟩
      · have : dataIds ((w'.outbox.filter (·.1 = 0)).map (·.2)) =
            (keys w'.outbox).filterMap fun q => if q.2 = 0 then some q.1 else none := hkeys _ hnew
        simp only [dataIds] at this
        rw [this]
        have hn := hw.nodup
        rw [hw.sent, List.nodup_append] at hn
        have hn1 := (List.reverse_perm _).nodup_iff.1 hn.1
        refine List.Nodup.filterMap ?_ hn1
        intro a a' b hb hb'
        simp only [Option.mem_def] at hb hb'
        split at hb
        · split at hb'
          · rename_i h1 h2
            simp only [Option.some.injEq] at hb hb'
            exact Prod.ext (hb.trans hb'.symm) (h1.trans h2.symm)
          · simp at hb'
        · simp at hb
      · intro i hi j hj hij
        subst hij
        exact (hfresh i hj).2 (h.dataS e hd i hi).1
    · rw [hdata e hed]; exact h.dataN e
  case dataS =>
    intro e he i hi
    by_cases hed : e = d
    · subst hed
      rw [hdd] at hi
      rw [hwd]
      simp only [dataIds, List.filterMap_append, List.mem_append] at hi
      rcases hi with hi | hi
      · exact ⟨hsent _ (h.dataS e he i hi).1, (h.dataS e he i hi).2⟩
      · have hf := hfresh i hi
        refine ⟨hf.1, ?_⟩
        -- the owner is `e`
        obtain ⟨v, hv⟩ := mem_dataIds.1 hi
        rw [List.mem_map] at hv
        obtain ⟨q, hq, hqe⟩ := hv
        rw [List.mem_filter] at hq
        have hok := hnew q hq.1
        obtain ⟨a, k⟩ := q
        simp only at hqe
        subst hqe
        cases hst : c.root.store i with
        | none => simpa [Cluster.flush] using hst
        | some u => exact absurd (h.rootS i e (by rw [hst]; simp) hok.2.2) hf.2
    · rw [hdata e hed] at hi
      rw [hwk e hed]
      exact h.dataS e he i hi
  case rootS =>
    intro i o hst how
    have := h.rootS i o hst how
    by_cases hed : o = d
    · subst hed; rw [hwd]; exact hsent _ this
    · rw [hwk o hed]; exact this
  case tags =>
    intro e he
    rw [hfl0]
    have hT := h.tags e he
    by_cases hed : e = d
    · subst hed
      rw [hwd]
      simp only
      rw [hchan 0 e, if_pos rfl] at hT
      refine List.Perm.trans (List.Perm.append_right _ ht) ?_
      have : execTags (gone 0 ++ chan' 0 e) = execTags (gone 0) ++ execTags (chan' 0 e) := by simp [execTags]
      rw [this] at hT
      simpa [List.append_assoc] using hT
    · rw [hwk e hed, hsame 0 e hed]; exact hT

end Verif.Cluster
