import Verif.Lemmas.ClusterRun
import Verif.Lemmas.WorkerLive

/-! Progress of the cluster: nothing that is asked for is lost. -/
namespace Verif.Cluster
open Verif.Spec
open Verif.Worker

variable {W : World} {isW : Nat → Bool} {m : Nat} {c : Cluster} {calls : List Call} {subs : List Sub} {H : Nat → List Req}
  {x : Ctx}

/-- The main process has the data or waits for it. -/
def Expected (r : Root) (i : Nat) : Prop := r.store i ≠ none ∨ ∃ wt, r.waiting = some wt ∧ i ∈ wt.remote

/-- The progress invariant; `H d` are the data requests worker `d` has received. -/
structure Live (x : Ctx) (isW : Nat → Bool) (c : Cluster) (H : Nat → List Req) : Prop where
  wl : ∀ d, isW d = true → WL x (c.worker d)
  served : ∀ d, isW d = true → ∀ t, Good x t → Serve (c.worker d).sent t [] (H d) (c.worker d)
  hown : ∀ d, isW d = true → ∀ q ∈ H d, c.root.owner q.1 = some d
  chanPW : ∀ d, (execReqs (c.chan 0 d)).Pairwise Before
  cross : ∀ d, isW d = true → ∀ r ∈ (c.worker d).pending, ∀ q ∈ execReqs (c.chan 0 d), Before r q
  asked : ∀ d, isW d = true → ∀ i ∈ (c.worker d).requested, ∃ o, c.root.owner i = some o ∧
    (Msg.get d i false ∈ c.chan d o ∨ (i, d, false) ∈ H o ∨ (c.worker d).store i ≠ none)
  sentW : ∀ o d, isW o = true → isW d = true → ∀ i, (i, d) ∈ (c.worker o).sent →
    (∃ k ∈ c.chan o d, i ∈ brings k) ∨ (c.worker d).store i ≠ none
  sentR : ∀ o, isW o = true → ∀ i, (i, 0) ∈ (c.worker o).sent → i ∈ dataIds (c.chan o 0) ∨ c.root.store i ≠ none
  wait : ∀ wt, c.root.waiting = some wt →
    (wt.remote.Nodup → wt.missing = (wt.remote.filter fun i => (c.root.store i).isNone).length) ∧
    ∀ i ∈ wt.remote, c.root.store i = none → ∃ o, c.root.owner i = some o ∧ (Msg.get 0 i true ∈ c.chan 0 o ∨ (i, 0, true) ∈ H o)
  putOwn : ∀ s d i v, isW d = true → Msg.putData i v ∈ c.chan s d → c.root.owner i = some d → (c.worker d).store i ≠ none
  toRoot : ∀ s, ∀ k ∈ c.chan s 0, ∃ i v, k = Msg.data i v
  askC : ∀ i b o, Msg.get 0 i b ∈ c.chan 0 o → Expected c.root i
  askH : ∀ i b o, isW o = true → (i, 0, b) ∈ H o → Expected c.root i
  askD : ∀ i s, i ∈ dataIds (c.chan s 0) → Expected c.root i
  res : ∀ p ∈ c.root.results, ∀ i ∈ p.1, c.root.store i ≠ none

theorem live_init (x : Ctx) (isW : Nat → Bool) (m : Nat) : Live x isW (Cluster.init m) (fun _ => []) := by
  constructor
  case served =>
    intro d _ t _
    constructor <;> simp [Cluster.init, Worker.init, keys]
  case wl =>
    intro d _
    constructor <;> simp [Cluster.init, Worker.init, LogStored]
  all_goals simp [Cluster.init, Worker.init, execReqs, dataIds]

theorem serve_flush {s0 : List (Nat × Nat)} {t : Nat} {H : List Req} {w : Worker} (h : Serve s0 t [] H w) :
    Serve w.sent t [] H { w with outbox := [] } :=
  ⟨h.nb, h.b, by simp [keys], h.nodup, h.all, by simp, h.has⟩

theorem wl_flush {w : Worker} (h : WL x w) : WL x { w with outbox := [] } :=
  ⟨h.log, h.held, h.order, h.run⟩

/-- A new reference is not an output. -/
theorem good_fresh (h : Inv W isW m c calls subs) : Good (ctx W m c calls subs) c.root.nextId := by
  intro s hs ho
  exact absurd ((h.bound s hs).2.2 _ ho) (by omega)

theorem mem_execReqs {l : List Msg} {r : Request} : r ∈ execReqs l ↔ Msg.execute r ∈ l := by
  simp only [execReqs, List.mem_filterMap]
  constructor
  · rintro ⟨k, hk, h⟩
    cases k with
    | execute q => simp only [Option.some.injEq] at h; subst h; exact hk
    | _ => simp at h
  · intro h; exact ⟨_, h, rfl⟩

theorem execReqs_cons (k : Msg) (t : List Msg) : execReqs (k :: t) = execReqs [k] ++ execReqs t := by
  simp only [execReqs, ← List.filterMap_append]
  rfl

theorem execReqs_append (a b : List Msg) : execReqs (a ++ b) = execReqs a ++ execReqs b := by simp [execReqs]

/-- A worker receives an operation. -/
theorem live_deliver (hsy : Sync (ctx W m c calls subs)) (hmk : Made (ctx W m c calls subs)) (h : Inv W isW m c calls subs)
    (l : Live (ctx W m c calls subs) isW c H) (h0 : isW 0 = false) (hm0 : m ≠ 0)
    {src dst : Nat} (hd : isW dst = true) {k : Msg} {t : List Msg} (hc : c.chan src dst = k :: t) {w' : Worker}
    (hh : (c.worker dst).handle W k = .ok w') :
    Live (ctx W m c calls subs) isW ({ c with chan := fun s d => if s = src ∧ d = dst then t else c.chan s d }.flush dst w')
      (fun e => if e = dst then H dst ++ reqOf (.op k) else H e) := by
  have hd0 : dst ≠ 0 := by rintro rfl; rw [h0] at hd; simp at hd
  have hk := h.chan src dst k (by rw [hc]; simp)
  have harr : Arrives (fun i => (c.worker dst).store i ≠ none ∨ (c.worker dst).owner i ≠ none)
      (fun i => (c.worker dst).store i ≠ none) k := by
    by_cases hs : src = 0
    · subst hs
      have := h.fifo dst hd
      rw [hc] at this
      exact this.1
    · cases k with
      | execute r => exact absurd hk.1 hs
      | _ => trivial
  have hsrc : ∀ r, k = .execute r → src = 0 := by
    rintro r rfl
    exact hk.1
  -- requests of the message
  have hreq : ∀ q ∈ execReqs [k], q ∈ execReqs (c.chan 0 dst) := by
    intro q hq
    rw [mem_execReqs, List.mem_singleton] at hq
    have := hsrc q hq.symm
    subst this
    rw [mem_execReqs, hc, ← hq]
    simp
  obtain ⟨s1, s2, s3, s4, s5, s6, -⟩ := handle_spec h.ok hd0 (h.worker dst hd) (h.pend dst hd) hk harr hh
  obtain ⟨⟨v1, hsv⟩, v2, v3⟩ := handle_live h.ok hsy hmk hd0 (h.worker dst hd) (h.pend dst hd) hk harr (l.wl dst hd)
    (l.served dst hd) (fun r hr q hq => l.cross dst hd r hr q (hreq q hq)) (by
      rintro i v rfl hn q hq rfl
      exact l.putOwn src dst q.1 v hd (by rw [hc]; simp) (l.hown dst hd q hq) hn) hh
  -- channels
  have hold : ∀ s e, ∀ q ∈ c.chan s e, q ∈ sendAll (fun s d => if s = src ∧ d = dst then t else c.chan s d) dst w'.outbox s e ∨
      (s = src ∧ e = dst ∧ q = k) := by
    intro s e q hq
    by_cases hse : s = src ∧ e = dst
    · obtain ⟨rfl, rfl⟩ := hse
      rw [hc, List.mem_cons] at hq
      rcases hq with rfl | hq
      · exact Or.inr ⟨rfl, rfl, rfl⟩
      · exact Or.inl (mem_sendAll_old (by simpa using hq))
    · exact Or.inl (mem_sendAll_old (by rw [if_neg hse]; exact hq))
  have hnew : ∀ s e, ∀ q ∈ sendAll (fun s d => if s = src ∧ d = dst then t else c.chan s d) dst w'.outbox s e,
      q ∈ c.chan s e ∨ (s = dst ∧ (e, q) ∈ w'.outbox) := by
    intro s e q hq
    rcases mem_sendAll hq with hq | hq
    · left
      split at hq
      · rename_i hse
        rw [hse.1, hse.2, hc]
        exact List.mem_cons_of_mem _ hq
      · exact hq
    · exact Or.inr hq
  have hH : ∀ e q, q ∈ H e → q ∈ (if e = dst then H dst ++ reqOf (.op k) else H e) := by
    intro e q hq
    split
    · rename_i he; subst he; simp [hq]
    · exact hq
  have hHk : ∀ s i b, k = .get s i b → (i, s, b) ∈ (if dst = dst then H dst ++ reqOf (.op k) else H dst) := by
    rintro s i b rfl
    simp [reqOf]
  have hwk : ∀ e, e ≠ dst → ({ c with chan := fun s d => if s = src ∧ d = dst then t else c.chan s d }.flush dst w').worker e =
      c.worker e := by
    intro e he; simp [Cluster.flush, he]
  have hwd : ({ c with chan := fun s d => if s = src ∧ d = dst then t else c.chan s d }.flush dst w').worker dst =
      { w' with outbox := [] } := by simp [Cluster.flush]
  have hst : ∀ e i, (c.worker e).store i ≠ none →
      (({ c with chan := fun s d => if s = src ∧ d = dst then t else c.chan s d }.flush dst w').worker e).store i ≠ none := by
    intro e i hi
    by_cases he : e = dst
    · subst he
      rw [hwd]
      exact s3 i (Or.inl hi)
    · rw [hwk e he]; exact hi
  have hx0 : ∀ d, (execReqs (sendAll (fun s d => if s = src ∧ d = dst then t else c.chan s d) dst w'.outbox 0 d)).Sublist
      (execReqs (c.chan 0 d)) := by
    intro d
    rw [sendAll_other _ _ _ (Ne.symm hd0)]
    split
    · rename_i hse
      obtain ⟨rfl, rfl⟩ := hse
      rw [hc, execReqs_cons]
      exact List.sublist_append_right _ _
    · exact List.Sublist.refl _
  -- messages of the outbox with data
  have hkey : ∀ i e, (i, e) ∈ w'.sent → (i, e) ∈ (c.worker dst).sent ∨ (∃ v, (e, Msg.putData i v) ∈ w'.outbox) ∨
      ∃ v, (e, Msg.data i v) ∈ w'.outbox := by
    intro i e he
    rw [s1.sent, List.mem_append, List.mem_reverse] at he
    rcases he with he | he
    · right
      simp only [keys, List.mem_filterMap] at he
      obtain ⟨⟨e', q⟩, hq, hqe⟩ := he
      cases q with
      | putData j v =>
        simp only [Option.some.injEq, Prod.mk.injEq] at hqe
        obtain ⟨rfl, rfl⟩ := hqe
        exact Or.inl ⟨v, hq⟩
      | data j v =>
        simp only [Option.some.injEq, Prod.mk.injEq] at hqe
        obtain ⟨rfl, rfl⟩ := hqe
        exact Or.inr ⟨v, hq⟩
      | _ => simp at hqe
    · exact Or.inl he
  have haskH : ∀ i b o, isW o = true → (i, 0, b) ∈ (if o = dst then H dst ++ reqOf (.op k) else H o) → Expected c.root i := by
    intro i b o ho hq
    split at hq
    · rw [List.mem_append] at hq
      rcases hq with hq | hq
      · exact l.askH i b dst hd hq
      · cases k with
        | get s j b' =>
          simp only [reqOf, List.mem_singleton, Prod.mk.injEq] at hq
          obtain ⟨rfl, rfl, rfl⟩ := hq
          have hs0 : src = 0 := hk.1.symm
          subst hs0
          exact l.askC i b dst (by rw [hc]; simp)
        | _ => simp [reqOf] at hq
    · exact l.askH i b o ho hq
  constructor
  case wl =>
    intro e he
    by_cases hed : e = dst
    · subst hed; rw [hwd]; exact wl_flush v1
    · rw [hwk e hed]; exact l.wl e he
  case served =>
    intro e he u hu
    by_cases hed : e = dst
    · subst hed; rw [hwd, if_pos rfl]; exact serve_flush (w := w') (hsv u hu)
    · rw [hwk e hed, if_neg hed]; exact l.served e he u hu
  case hown =>
    intro e he q hq
    simp only [Cluster.flush]
    split at hq
    · rename_i hed
      subst hed
      rw [List.mem_append] at hq
      rcases hq with hq | hq
      · exact l.hown e he q hq
      · cases k with
        | get s i b =>
          simp only [reqOf, List.mem_singleton] at hq
          subst hq
          exact hk.2.1
        | _ => simp [reqOf] at hq
    · exact l.hown e he q hq
  case chanPW => exact fun d => (l.chanPW d).sublist (hx0 d)
  case cross =>
    intro e he r hr q hq
    have hq' : q ∈ execReqs (sendAll (fun s d => if s = src ∧ d = dst then t else c.chan s d) dst w'.outbox 0 e) := hq
    by_cases hed : e = dst
    · subst hed
      rw [hwd] at hr
      obtain ⟨r0, hr0, hsub⟩ := v2 r hr
      intro i hi hio
      rw [List.mem_append] at hr0
      rcases hr0 with hr0 | hr0
      · exact l.cross e he r0 hr0 q ((hx0 e).subset hq') i (hsub i hi) hio
      · rw [mem_execReqs, List.mem_singleton] at hr0
        have hs0 := hsrc r0 hr0.symm
        subst hs0
        rw [sendAll_other _ _ _ (Ne.symm hd0)] at hq'
        simp only [and_self, if_true] at hq'
        have hp := l.chanPW e
        rw [hc, execReqs_cons, List.pairwise_append] at hp
        exact hp.2.2 r0 (by rw [mem_execReqs, hr0]; simp) q hq' i (hsub i hi) hio
    · rw [hwk e hed] at hr
      exact l.cross e he r hr q ((hx0 e).subset hq')
  case asked =>
    intro e he i hi
    have key : ∀ o, c.root.owner i = some o → (Msg.get e i false ∈ c.chan e o ∨ (i, e, false) ∈ H o ∨ (c.worker e).store i ≠ none) →
        ∃ o, c.root.owner i = some o ∧ (Msg.get e i false ∈ sendAll (fun s d => if s = src ∧ d = dst then t else c.chan s d) dst w'.outbox e o ∨
          (i, e, false) ∈ (if o = dst then H dst ++ reqOf (.op k) else H o) ∨
          (({ c with chan := fun s d => if s = src ∧ d = dst then t else c.chan s d }.flush dst w').worker e).store i ≠ none) := by
      intro o ho hx
      refine ⟨o, ho, ?_⟩
      rcases hx with hx | hx | hx
      · rcases hold e o _ hx with hx | ⟨h1, h2, h3⟩
        · exact Or.inl hx
        · subst h2
          exact Or.inr (Or.inl (hHk e i false h3.symm))
      · exact Or.inr (Or.inl (hH o _ hx))
      · exact Or.inr (Or.inr (hst e i hx))
    by_cases hed : e = dst
    · subst hed
      have hi' : i ∈ w'.requested := by rw [hwd] at hi; exact hi
      rcases v3 i hi' with hi' | ⟨o, ho, hq⟩
      · obtain ⟨o, ho, hx⟩ := l.asked e he i hi'
        exact key o ho hx
      · refine ⟨o, (h.worker e hd).owner i o ho, Or.inl ?_⟩
        exact mem_sendAll_new hq
    · rw [hwk e hed] at hi
      obtain ⟨o, ho, hx⟩ := l.asked e he i hi
      exact key o ho hx
  case sentW =>
    intro o e ho he i hi
    have key : (i, e) ∈ (c.worker o).sent →
        (∃ q ∈ sendAll (fun s d => if s = src ∧ d = dst then t else c.chan s d) dst w'.outbox o e, i ∈ brings q) ∨
        (({ c with chan := fun s d => if s = src ∧ d = dst then t else c.chan s d }.flush dst w').worker e).store i ≠ none := by
      intro hs
      rcases l.sentW o e ho he i hs with ⟨q, hq, hb⟩ | hs
      · rcases hold o e q hq with hq | ⟨h1, h2, h3⟩
        · exact Or.inl ⟨q, hq, hb⟩
        · subst h2 h3
          right
          rw [hwd]
          exact s3 i (Or.inr hb)
      · exact Or.inr (hst e i hs)
    by_cases hod : o = dst
    · subst hod
      have hi' : (i, e) ∈ w'.sent := by rw [hwd] at hi; exact hi
      rcases hkey i e hi' with hs | ⟨v, hs⟩ | ⟨v, hs⟩
      · exact key hs
      · exact Or.inl ⟨_, mem_sendAll_new hs, by simp [brings]⟩
      · have := (s1.out _ hs).2.1
        subst this
        rw [h0] at he; simp at he
    · rw [hwk o hod] at hi
      exact key hi
  case sentR =>
    intro o ho i hi
    have key : (i, 0) ∈ (c.worker o).sent →
        i ∈ dataIds (sendAll (fun s d => if s = src ∧ d = dst then t else c.chan s d) dst w'.outbox o 0) ∨
          c.root.store i ≠ none := by
      intro hs
      rcases l.sentR o ho i hs with hs | hs
      · obtain ⟨v, hv⟩ := mem_dataIds.1 hs
        rcases hold o 0 _ hv with hq | ⟨-, h2, -⟩
        · exact Or.inl (mem_dataIds.2 ⟨v, hq⟩)
        · exact absurd h2.symm hd0
      · exact Or.inr hs
    by_cases hod : o = dst
    · subst hod
      have hi' : (i, 0) ∈ w'.sent := by rw [hwd] at hi; exact hi
      rcases hkey i 0 hi' with hs | ⟨v, hs⟩ | ⟨v, hs⟩
      · exact key hs
      · exact absurd rfl (s1.out _ hs).2.1
      · exact Or.inl (mem_dataIds.2 ⟨v, mem_sendAll_new hs⟩)
    · rw [hwk o hod] at hi
      exact key hi
  case wait =>
    intro wt hwt
    obtain ⟨a2, a3⟩ := l.wait wt hwt
    refine ⟨a2, ?_⟩
    intro i hi hn
    obtain ⟨o, ho, hx⟩ := a3 i hi hn
    refine ⟨o, ho, ?_⟩
    rcases hx with hx | hx
    · rcases hold 0 o _ hx with hx | ⟨h1, h2, h3⟩
      · exact Or.inl hx
      · subst h2
        exact Or.inr (hHk 0 i true h3.symm)
    · exact Or.inr (hH o _ hx)
  case putOwn =>
    intro s e i v he hq ho
    rcases hnew s e _ hq with hq | ⟨rfl, hq'⟩
    · exact hst e i (l.putOwn s e i v he hq ho)
    · have h1 := (s1.out _ hq').2.2
      have h2 : c.root.owner i = some e := ho
      have h3 : c.root.owner i = some s := h1
      rw [h2] at h3
      simp only [Option.some.injEq] at h3
      subst h3
      rw [hwd]
      have hs : (i, e) ∈ w'.sent := by
        rw [s1.sent, List.mem_append, List.mem_reverse]
        left
        simp only [keys, List.mem_filterMap]
        exact ⟨_, hq', rfl⟩
      exact (hsv _ (good_fresh h)).has _ hs
  case toRoot =>
    intro s q hq
    rcases hnew s 0 q hq with hq | ⟨rfl, hq'⟩
    · exact l.toRoot s q hq
    · have ho := s1.out _ hq'
      cases q with
      | data i v => exact ⟨i, v, rfl⟩
      | get a i b =>
        have := h.own i 0 ho.2.2.1
        rw [h0] at this
        simp at this
      | putData i v => exact absurd rfl ho.2.1
      | taskDone ids => exact absurd (Eq.symm ho) hm0
      | execute _ => exact absurd ho id
      | putOwner _ _ => exact absurd ho id
      | actorCreate _ _ => exact absurd ho id
      | actorExecute _ _ _ => exact absurd ho id
  case askC =>
    intro i b o hq
    rcases hnew 0 o _ hq with hq | ⟨hc, -⟩
    · exact l.askC i b o hq
    · exact absurd hc.symm hd0
  case askH => exact haskH
  case askD =>
    intro i s hq
    obtain ⟨v, hv⟩ := mem_dataIds.1 hq
    rcases hnew s 0 _ hv with hv | ⟨rfl, hv'⟩
    · exact l.askD i s (mem_dataIds.2 ⟨v, hv⟩)
    · rcases ((hsv _ (good_fresh h)).kind _ hv').2 i v rfl with hH' | ⟨-, hH'⟩
      · exact haskH i true s hd (by rw [if_pos rfl]; exact hH')
      · exact haskH i false s hd (by rw [if_pos rfl]; exact hH')
  case res => exact l.res

theorem live_put (l : Live x isW c H) (v : Val) (hw : c.root.waiting = none) :
    Live x isW { c with root := { c.root with store := upd c.root.store c.root.nextId v, nextId := c.root.nextId + 1 } } H :=
  have hE : ∀ i, Expected c.root i →
      Expected { c.root with store := upd c.root.store c.root.nextId v, nextId := c.root.nextId + 1 } i := by
    rintro i (hi | hi)
    · left
      simp only [upd]
      split
      · simp
      · exact hi
    · exact Or.inr hi
  { l with
    askC := fun i b o hq => hE i (l.askC i b o hq)
    askH := fun i b o ho hq => hE i (l.askH i b o ho hq)
    askD := fun i s hq => hE i (l.askD i s hq)
    sentR := by
      intro o ho i hi
      rcases l.sentR o ho i hi with hs | hs
      · exact Or.inl hs
      · right
        simp only [upd]
        split
        · simp
        · exact hs
    wait := by intro wt hwt; rw [hw] at hwt; simp at hwt
    res := by
      intro p hp i hi
      simp only [upd]
      split
      · simp
      · exact l.res p hp i hi }

theorem live_getNow (l : Live x isW c H) (ids : List Nat) (hw : c.root.waiting = none) (hall : ∀ i ∈ ids, c.root.store i ≠ none) :
    Live x isW { c with root := c.root.finishGet ids none } H :=
  have hE : ∀ i, Expected c.root i → Expected (c.root.finishGet ids none) i := by
    rintro i (hi | ⟨wt, hi, -⟩)
    · exact Or.inl hi
    · rw [hw] at hi; simp at hi
  { l with
    askC := fun i b o hq => hE i (l.askC i b o hq)
    askH := fun i b o ho hq => hE i (l.askH i b o ho hq)
    askD := fun i s hq => hE i (l.askD i s hq)
    wait := by intro wt hwt; simp [Root.finishGet] at hwt
    res := by
      intro p hp i hi
      simp only [Root.finishGet, List.mem_append, List.mem_singleton] at hp ⊢
      rcases hp with hp | rfl
      · exact l.res p hp i hi
      · exact hall i hi }

theorem live_getWait (l : Live x isW c H) (hw : c.root.waiting = none) (h : Inv W isW m c calls subs) (h0 : isW 0 = false) (ids : List Nat)
    (hall : ∀ i ∈ ids.filter fun i => (c.root.store i).isNone, c.root.owner i ≠ none) :
    Live x isW { c with
      root := { c.root with waiting := some ⟨ids, ids.filter fun i => (c.root.store i).isNone,
        (ids.filter fun i => (c.root.store i).isNone).length, none⟩ }
      chan := sendAll c.chan 0
        ((ids.filter fun i => (c.root.store i).isNone).map fun i => ((c.root.owner i).getD 0, .get 0 i true)) } H := by
  generalize hr : (ids.filter fun i => (c.root.store i).isNone) = remote at hall ⊢
  have hex : ∀ d, execReqs (sendAll c.chan 0 (remote.map fun i => ((c.root.owner i).getD 0, .get 0 i true)) 0 d) =
      execReqs (c.chan 0 d) := by
    intro d
    rw [sendAll_self, execReqs_append]
    have : execReqs (((remote.map fun i => ((c.root.owner i).getD 0, Msg.get 0 i true)).filter (·.1 = d)).map (·.2)) = [] := by
      rw [execReqs, List.filterMap_eq_nil_iff]
      intro q hq
      simp only [List.mem_map, List.mem_filter] at hq
      obtain ⟨p, ⟨⟨i, -, rfl⟩, -⟩, rfl⟩ := hq
      rfl
    rw [this, List.append_nil]
  have hnew : ∀ s e, ∀ q ∈ sendAll c.chan 0 (remote.map fun i => ((c.root.owner i).getD 0, Msg.get 0 i true)) s e,
      q ∈ c.chan s e ∨ (s = 0 ∧ ∃ i ∈ remote, c.root.owner i = some e ∧ q = .get 0 i true) := by
    intro s e q hq
    rcases mem_sendAll hq with hq | ⟨hs, hq⟩
    · exact Or.inl hq
    · rw [List.mem_map] at hq
      obtain ⟨i, hi, he⟩ := hq
      rw [Prod.mk.injEq] at he
      obtain ⟨o, ho⟩ := Option.ne_none_iff_exists'.1 (hall i hi)
      rw [ho] at he
      simp only [Option.getD_some] at he
      obtain ⟨rfl, rfl⟩ := he
      exact Or.inr ⟨hs, i, hi, ho, rfl⟩
  have hE : ∀ i, Expected c.root i → Expected { c.root with waiting := some ⟨ids, remote, remote.length, none⟩ } i := by
    rintro i (hi | ⟨wt, hi, -⟩)
    · exact Or.inl hi
    · rw [hw] at hi; simp at hi
  constructor
  case wl => exact l.wl
  case served => exact l.served
  case hown => exact l.hown
  case chanPW => intro d; simp only; rw [hex]; exact l.chanPW d
  case cross => intro d hd r hrr q hq; simp only at hq; rw [hex] at hq; exact l.cross d hd r hrr q hq
  case asked =>
    intro d hd i hi
    obtain ⟨o, ho, hx⟩ := l.asked d hd i hi
    refine ⟨o, ho, ?_⟩
    rcases hx with hx | hx
    · exact Or.inl (mem_sendAll_old hx)
    · exact Or.inr hx
  case sentW =>
    intro o d ho hd i hi
    rcases l.sentW o d ho hd i hi with ⟨q, hq, hb⟩ | hs
    · exact Or.inl ⟨q, mem_sendAll_old hq, hb⟩
    · exact Or.inr hs
  case sentR =>
    intro o ho i hi
    rcases l.sentR o ho i hi with hs | hs
    · obtain ⟨v, hv⟩ := mem_dataIds.1 hs
      exact Or.inl (mem_dataIds.2 ⟨v, mem_sendAll_old hv⟩)
    · exact Or.inr hs
  case wait =>
    intro wt hwt
    simp only [Option.some.injEq] at hwt
    subst hwt
    simp only
    have hrn : ∀ i ∈ remote, c.root.store i = none := by
      intro i hi
      rw [← hr, List.mem_filter] at hi
      simpa using hi.2
    refine ⟨fun _ => ?_, ?_⟩
    · congr 1
      symm
      rw [List.filter_eq_self]
      intro i hi
      rw [hrn i hi]; rfl
    · intro i hi _
      obtain ⟨o, ho⟩ := Option.ne_none_iff_exists'.1 (hall i hi)
      refine ⟨o, ho, Or.inl (mem_sendAll_new ?_)⟩
      rw [List.mem_map]
      exact ⟨i, hi, by rw [ho]; rfl⟩
  case putOwn =>
    intro s e i v he hq ho
    rcases hnew s e _ hq with hq | ⟨-, j, -, -, hq⟩
    · exact l.putOwn s e i v he hq ho
    · simp at hq
  case toRoot =>
    intro s q hq
    rcases hnew s 0 q hq with hq | ⟨-, j, -, ho, -⟩
    · exact l.toRoot s q hq
    · have := (h.own j 0 ho).2.1
      rw [h0] at this
      simp at this
  case askC =>
    intro i b o hq
    rcases hnew 0 o _ hq with hq | ⟨-, j, hj, -, hq⟩
    · exact hE i (l.askC i b o hq)
    · simp only [Msg.get.injEq, true_and] at hq
      obtain ⟨rfl, -⟩ := hq
      exact Or.inr ⟨_, rfl, hj⟩
  case askH => exact fun i b o ho hq => hE i (l.askH i b o ho hq)
  case askD =>
    intro i s hq
    obtain ⟨v, hv⟩ := mem_dataIds.1 hq
    rcases hnew s 0 _ hv with hv | ⟨-, j, -, -, hv⟩
    · exact hE i (l.askD i s (mem_dataIds.2 ⟨v, hv⟩))
    · simp at hv
  case res => exact l.res

theorem filter_upd (store : Nat → Option Val) (v : Val) : ∀ (remote : List Nat) (id : Nat), remote.Nodup → id ∈ remote →
    store id = none → (remote.filter fun i => (upd store id v i).isNone).length + 1 = (remote.filter fun i => (store i).isNone).length
  | i :: r, id, hnd, hm, hn => by
    rw [List.nodup_cons] at hnd
    rw [List.mem_cons] at hm
    rw [List.filter_cons, List.filter_cons]
    by_cases hi : i = id
    · subst hi
      have e : (r.filter fun j => (upd store i v j).isNone) = r.filter fun j => (store j).isNone := by
        apply List.filter_congr
        intro j hj
        have : j ≠ i := by rintro rfl; exact hnd.1 hj
        simp [upd, this]
      rw [e]
      simp [upd, hn]
    · have hm' : id ∈ r := hm.resolve_left (fun h => hi h.symm)
      have ih := filter_upd store v r id hnd.2 hm' hn
      have e : (upd store id v i).isNone = (store i).isNone := by simp [upd, hi]
      rw [e]
      split
      · simp only [List.length_cons]; omega
      · exact ih

/-- When the last reply comes, all references were asked for once and are there. -/
theorem Inv.wait_last (h : Inv W isW m c calls subs) {wt : Waiting} (hw : c.root.waiting = some wt) (hmis : wt.missing ≤ 1) {id : Nat}
    (hid : id ∈ wt.remote) (hnone : c.root.store id = none) (v : Val) :
    wt.remote.Nodup ∧ ∀ i ∈ wt.remote, upd c.root.store id v i ≠ none := by
  obtain ⟨got, g1, g2, g3, g4, g5, -⟩ := h.wait wt hw
  have hng : id ∉ got := fun hx => g5 id hx hnone
  have hnd : (id :: got).Nodup := List.nodup_cons.2 ⟨hng, g1⟩
  have hsub : (id :: got).Subperm wt.remote := List.subperm_of_subset hnd (by
    intro x hx
    rcases List.mem_cons.1 hx with rfl | hx
    · exact hid
    · exact g2 x hx)
  have hperm := hsub.perm_of_length_le (by simp only [List.length_cons]; omega)
  refine ⟨hperm.nodup_iff.1 hnd, ?_⟩
  intro i hi
  simp only [upd]
  split
  · simp
  · rename_i hne
    rcases List.mem_cons.1 (hperm.mem_iff.2 hi) with rfl | hx
    · exact absurd rfl hne
    · exact g5 i hx

theorem live_reply (l : Live x isW c H) (h : Inv W isW m c calls subs) {src : Nat} {wt : Waiting} {id : Nat} {v : Val}
    {t : List Msg} (hw : c.root.waiting = some wt) (hc : c.chan src 0 = .data id v :: t) (hid : id ∈ wt.remote)
    (h0 : isW 0 = false) :
    Live x isW { c with
      root := if wt.missing ≤ 1 then
          ({ c.root with store := upd c.root.store id v } : Root).finishGet wt.ids (wt.failed <|> excOf v)
        else { c.root with
          store := upd c.root.store id v
          waiting := some { wt with missing := wt.missing - 1, failed := wt.failed <|> excOf v } }
      chan := fun s d => if s = src ∧ d = 0 then t else c.chan s d } H := by
  generalize hroot : (if wt.missing ≤ 1 then
          ({ c.root with store := upd c.root.store id v } : Root).finishGet wt.ids (wt.failed <|> excOf v)
        else { c.root with
          store := upd c.root.store id v
          waiting := some { wt with missing := wt.missing - 1, failed := wt.failed <|> excOf v } }) = root'
  have hrs : root'.store = upd c.root.store id v ∧ root'.owner = c.root.owner := by
    rw [← hroot]; split <;> exact ⟨rfl, rfl⟩
  have hne : ∀ s d, d ≠ 0 → (if s = src ∧ d = 0 then t else c.chan s d) = c.chan s d := by
    intro s d hd; rw [if_neg (fun hx => hd hx.2)]
  have hw0 : ∀ d, isW d = true → d ≠ 0 := by rintro d hd rfl; rw [h0] at hd; simp at hd
  have howner : ∀ i o, c.root.owner i = some o → o ≠ 0 := fun i o ho => hw0 o (h.own i o ho).2.1
  have hnone : c.root.store id = none := by
    have hmem : id ∈ dataIds (c.chan src 0) := mem_dataIds.2 ⟨v, by rw [hc]; simp⟩
    exact (h.dataS src (h.dataOwner hmem).2 id hmem).2
  have hE : ∀ i, Expected c.root i → Expected root' i := by
    rintro i (hi | ⟨wt', hi, hm⟩)
    · left
      rw [hrs.1]
      simp only [upd]
      split
      · simp
      · exact hi
    · rw [hw, Option.some.injEq] at hi
      subst hi
      by_cases hmis : wt.missing ≤ 1
      · left
        rw [hrs.1]
        exact (h.wait_last hw hmis hid hnone v).2 i hm
      · right
        rw [← hroot, if_neg hmis]
        exact ⟨_, rfl, hm⟩
  constructor
  case wl => exact l.wl
  case served => exact l.served
  case hown => intro d hd q hq; simp only; rw [hrs.2]; exact l.hown d hd q hq
  case chanPW =>
    intro d
    by_cases hd : d = 0
    · subst hd
      simp only
      split
      · rename_i hs
        have := l.chanPW 0
        rw [← hs.1] at hc
        rw [hc, execReqs_cons, List.pairwise_append] at this
        exact this.2.1
      · exact l.chanPW 0
    · simp only; rw [hne 0 d hd]; exact l.chanPW d
  case cross => intro d hd r hr q hq; simp only at hq; rw [hne 0 d (hw0 d hd)] at hq; exact l.cross d hd r hr q hq
  case asked =>
    intro d hd i hi
    obtain ⟨o, ho, hx⟩ := l.asked d hd i hi
    refine ⟨o, by simp only; rw [hrs.2]; exact ho, ?_⟩
    simp only
    rw [hne d o (howner i o ho)]
    exact hx
  case sentW =>
    intro o d ho hd i hi
    simp only
    rw [hne o d (hw0 d hd)]
    exact l.sentW o d ho hd i hi
  case sentR =>
    intro o ho i hi
    simp only
    rw [hrs.1]
    rcases l.sentR o ho i hi with hs | hs
    · by_cases hii : i = id
      · right; simp [upd, hii]
      · left
        split
        · rename_i hos
          rw [hos.1, hc] at hs
          simp only [dataIds, List.filterMap_cons, List.mem_cons] at hs
          exact hs.resolve_left hii
        · exact hs
    · right
      simp only [upd]
      split
      · simp
      · exact hs
  case wait =>
    intro wt' hwt'
    obtain ⟨a2, a3⟩ := l.wait wt hw
    simp only at hwt' ⊢
    rw [← hroot] at hwt'
    split at hwt'
    · simp [Root.finishGet] at hwt'
    · simp only [Option.some.injEq] at hwt'
      subst hwt'
      simp only
      rw [hrs.1, hrs.2]
      refine ⟨fun a1 => ?_, ?_⟩
      · have := filter_upd c.root.store v wt.remote id a1 hid hnone
        have := a2 a1
        omega
      · intro i hi hn
        have hn' : c.root.store i = none := by
          simp only [upd] at hn
          split at hn
          · simp at hn
          · exact hn
        obtain ⟨o, ho, hx⟩ := a3 i hi hn'
        refine ⟨o, ho, ?_⟩
        rw [hne 0 o (howner i o ho)]
        exact hx
  case putOwn =>
    intro s e i u he hq ho
    simp only at hq ho
    rw [hne s e (hw0 e he)] at hq
    rw [hrs.2] at ho
    exact l.putOwn s e i u he hq ho
  case toRoot =>
    intro s q hq
    simp only at hq
    split at hq
    · rename_i hs
      refine l.toRoot src q ?_
      rw [hc]; simp [hq]
    · exact l.toRoot s q hq
  case askC =>
    intro i b o hq
    simp only at hq
    refine hE i (l.askC i b o ?_)
    split at hq
    · rename_i hs
      rw [hs.1, hs.2]
      rw [← hs.1] at hc ⊢
      rw [hc]
      simp [hq]
    · exact hq
  case askH => exact fun i b o ho hq => hE i (l.askH i b o ho hq)
  case askD =>
    intro i s hq
    simp only at hq
    refine hE i (l.askD i s ?_)
    split at hq
    · rename_i hs
      rw [hs.1, hc, dataIds, List.filterMap_cons]
      exact List.mem_cons_of_mem _ hq
    · exact hq
  case res =>
    intro p hp i hi
    simp only at hp ⊢
    have hold : c.root.store i ≠ none → root'.store i ≠ none := by
      intro hi
      rw [hrs.1]
      simp only [upd]
      split
      · simp
      · exact hi
    by_cases hmis : wt.missing ≤ 1
    · rw [← hroot, if_pos hmis] at hp
      simp only [Root.finishGet, List.mem_append, List.mem_singleton] at hp
      rcases hp with hp | rfl
      · exact hold (l.res p hp i hi)
      · obtain ⟨got, -, -, -, -, -, hids, -⟩ := h.wait wt hw
        rcases hids i hi with hc | hc
        · exact hold hc
        · rcases hE i (Or.inr ⟨wt, hw, hc⟩) with h1 | ⟨wt', h1, -⟩
          · exact h1
          · rw [← hroot, if_pos hmis] at h1
            simp [Root.finishGet] at h1
    · rw [← hroot, if_neg hmis] at hp
      exact hold (l.res p hp i hi)

theorem live_submit (l : Live (ctx W m c calls subs) isW c H) (h : Inv W isW m c calls subs) {fn : Nat} {args : List Val} {n dest : Nat}
    (hw : c.root.waiting = none) (hdest : isW dest = true) (h0 : isW 0 = false)
    {r1 r2 : Root} {l1 l2 : List (Nat × Msg)}
    (p1 : c.root.pushRef dest fn = some (r1, l1)) (p2 : r1.pushList dest args = some (r2, l2)) :
    Live (ctx W m c calls subs) isW { c with
        root := { (r2.genOuts dest n).2 with nextTag := (r2.genOuts dest n).2.nextTag + 1 }
        chan := sendAll c.chan 0 (l1 ++ l2 ++
          [(dest, .execute ⟨(r2.genOuts dest n).2.nextTag, .fn fn, args, (r2.genOuts dest n).1⟩)]) } H := by
  have hd0 : dest ≠ 0 := by rintro rfl; rw [h0] at hdest; simp at hdest
  have hP := (pushRef_spec p1).trans (pushList_spec args p2)
  generalize hl : l1 ++ l2 = ms at hP ⊢
  have hr2 := hP.same
  have hid : r2.nextId = c.root.nextId := by rw [hr2]
  have htag : r2.nextTag = c.root.nextTag := by rw [hr2]
  have hstore : r2.store = c.root.store := by rw [hr2]
  have howner : r2.owner = c.root.owner := by rw [hr2]
  have hwait : r2.waiting = none := by rw [hr2]; exact hw
  simp only [Root.genOuts, hid, htag, hstore, howner, hwait]
  generalize houts : (List.range n).map (c.root.nextId + ·) = outs
  have hlen : outs.length = n := by rw [← houts]; simp
  have hon : ∀ o ∈ outs, c.root.nextId ≤ o := by
    intro o ho
    rw [← houts, List.mem_map] at ho
    obtain ⟨k, hk, rfl⟩ := ho
    omega
  have hownlt : ∀ i o, c.root.owner i = some o → (if i ∈ outs then some dest else c.root.owner i) = some o := by
    intro i o ho
    have := (h.own i o ho).1
    rw [if_neg (fun hc => by have := hon i hc; omega)]
    exact ho
  -- requests in the channel
  generalize hreq : (⟨c.root.nextTag, .fn fn, args, outs⟩ : Request) = req
  have hro : req.outs = outs := by rw [← hreq]
  have hbefore : ∀ r : Request, (∃ d, Corr (ctx W m c calls subs) d r) → Before r req := by
    rintro r ⟨d, s, c1, -, -, -, -, c6, -⟩ i hi hc
    rw [hro] at hc
    have h1 := hon i hc
    have h2 := (h.bound s (List.mem_of_getElem? c1)).1 i (c6 i hi)
    omega
  have hex : ∀ d, execReqs (sendAll c.chan 0 (ms ++ [(dest, .execute req)]) 0 d) =
      execReqs (c.chan 0 d) ++ (if d = dest then [req] else []) := by
    intro d
    rw [sendAll_self, execReqs_append, List.filter_append, List.map_append, execReqs_append]
    have : execReqs ((ms.filter (·.1 = d)).map (·.2)) = [] := by
      rw [execReqs, List.filterMap_eq_nil_iff]
      intro q hq
      simp only [List.mem_map, List.mem_filter] at hq
      obtain ⟨p, ⟨hp, -⟩, rfl⟩ := hq
      rcases (hP.msgs p hp).2 with ⟨i, v, he, -⟩ | ⟨i, o, he, -⟩ <;> rw [he]
    rw [this, List.nil_append]
    congr 1
    by_cases hdd : d = dest
    · subst hdd; simp [execReqs]
    · have : dest ≠ d := fun h => hdd h.symm
      simp [hdd, this, execReqs]
  have hnew : ∀ s e, ∀ q ∈ sendAll c.chan 0 (ms ++ [(dest, .execute req)]) s e,
      q ∈ c.chan s e ∨ (s = 0 ∧ e = dest ∧ ((∃ i v, q = .putData i v ∧ c.root.store i = some v) ∨ (∃ i o, q = .putOwner i o) ∨ q = .execute req)) := by
    intro s e q hq
    rcases mem_sendAll hq with hq | ⟨hs, hq⟩
    · exact Or.inl hq
    · right
      rw [List.mem_append, List.mem_singleton, Prod.mk.injEq] at hq
      rcases hq with hq | ⟨rfl, rfl⟩
      · obtain ⟨e1, e2⟩ := hP.msgs _ hq
        refine ⟨hs, e1, ?_⟩
        rcases e2 with ⟨i, v, e2, e3⟩ | ⟨i, o, e2, -⟩
        · exact Or.inl ⟨i, v, e2, e3⟩
        · exact Or.inr (Or.inl ⟨i, o, e2⟩)
      · exact ⟨hs, rfl, Or.inr (Or.inr rfl)⟩
  have hE : ∀ i, Expected c.root i → c.root.store i ≠ none ∨ ∃ wt, (none : Option Waiting) = some wt ∧ i ∈ wt.remote := by
    rintro i (hi | ⟨wt, hi, -⟩)
    · exact Or.inl hi
    · rw [hw] at hi; simp at hi
  constructor
  case wl => exact l.wl
  case served => exact l.served
  case hown =>
    intro d hd q hq
    exact hownlt _ _ (l.hown d hd q hq)
  case chanPW =>
    intro d
    simp only
    rw [hex, List.pairwise_append]
    refine ⟨l.chanPW d, by split <;> simp, ?_⟩
    intro r hr q hq
    split at hq
    · rw [List.mem_singleton] at hq
      subst hq
      rw [mem_execReqs] at hr
      exact hbefore r ⟨d, (h.chan 0 d _ hr).2⟩
    · simp at hq
  case cross =>
    intro d hd r hr q hq
    simp only at hq
    rw [hex, List.mem_append] at hq
    rcases hq with hq | hq
    · exact l.cross d hd r hr q hq
    · split at hq
      · rw [List.mem_singleton] at hq
        subst hq
        exact hbefore r ⟨d, (h.pend d hd r hr).1⟩
      · simp at hq
  case asked =>
    intro d hd i hi
    obtain ⟨o, ho, hx⟩ := l.asked d hd i hi
    refine ⟨o, hownlt i o ho, ?_⟩
    rcases hx with hx | hx
    · exact Or.inl (mem_sendAll_old hx)
    · exact Or.inr hx
  case sentW =>
    intro o d ho hd i hi
    rcases l.sentW o d ho hd i hi with ⟨q, hq, hb⟩ | hs
    · exact Or.inl ⟨q, mem_sendAll_old hq, hb⟩
    · exact Or.inr hs
  case sentR =>
    intro o ho i hi
    rcases l.sentR o ho i hi with hs | hs
    · obtain ⟨v, hv⟩ := mem_dataIds.1 hs
      exact Or.inl (mem_dataIds.2 ⟨v, mem_sendAll_old hv⟩)
    · exact Or.inr hs
  case wait => intro wt hwt; simp at hwt
  case putOwn =>
    intro s e i v he hq ho
    simp only at ho
    have hold : (∃ u, meaning W calls i = some u) → c.root.owner i = some e := by
      rintro ⟨u, hu⟩
      have := h.dom i (by rw [hu]; simp)
      rw [if_neg (fun hc => by have := hon i hc; omega)] at ho
      exact ho
    rcases hnew s e _ hq with hq | ⟨-, -, ⟨j, u, hq, hs⟩ | ⟨j, o, hq⟩ | hq⟩
    · exact l.putOwn s e i v he hq (hold ⟨v, (h.chan s e _ hq).1⟩)
    · simp only [Msg.putData.injEq] at hq
      obtain ⟨rfl, rfl⟩ := hq
      have hoi := hold ⟨v, h.rstore i v hs⟩
      have h1 := h.rootS i e (by rw [hs]; simp) hoi
      exact (l.served e he _ (good_fresh h)).has _ h1
    · simp at hq
    · simp at hq
  case toRoot =>
    intro s q hq
    rcases hnew s 0 q hq with hq | ⟨-, hc, -⟩
    · exact l.toRoot s q hq
    · exact absurd hc.symm hd0
  case askC =>
    intro i b o hq
    rcases hnew 0 o _ hq with hq | ⟨-, -, ⟨j, u, hq, hs⟩ | ⟨j, o', hq⟩ | hq⟩
    · exact hE i (l.askC i b o hq)
    all_goals simp at hq
  case askH => exact fun i b o ho hq => hE i (l.askH i b o ho hq)
  case askD =>
    intro i s hq
    obtain ⟨v, hv⟩ := mem_dataIds.1 hq
    rcases hnew s 0 _ hv with hv | ⟨-, hc, -⟩
    · exact hE i (l.askD i s (mem_dataIds.2 ⟨v, hv⟩))
    · exact absurd hc.symm hd0
  case res =>
    have hres : r2.results = c.root.results := by rw [hr2]
    simp only [hres]
    exact l.res

theorem extend_from : ∀ (l : List (Nat × Val)) {env : Nat → Option Val} {i : Nat} {v : Val}, extend env l i = some v →
    env i = some v ∨ (i, v) ∈ l
  | [], _, _, _, h => Or.inl h
  | x :: l, env, i, v, h => by
    rcases extend_from l (env := fun i => if i = x.1 then some x.2 else env i) h with h1 | h1
    · split at h1
      · rename_i he
        simp only [Option.some.injEq] at h1
        subst he h1
        exact Or.inr (by simp)
      · exact Or.inl h1
    · exact Or.inr (by simp [h1])

theorem outputValues_mem {outs : List Nat} {r : Ret} {p : Nat × Val} (h : p ∈ outputValues outs r) : p.1 ∈ outs := by
  simp only [outputValues] at h
  split at h
  · simp only [List.mem_map] at h
    obtain ⟨o, ho, rfl⟩ := h
    exact ho
  · split at h
    · simp only [List.mem_singleton] at h
      subst h
      simp
    · exact (List.of_mem_zip h).1
    · simp at h

theorem callOf_from (n : Nat) (a : Act) (env : Nat → Option Val) {i : Nat} {v : Val}
    (h : (callOf n a).foldl (evalCall W) env i = some v) : env i = some v ∨ (n ≤ i ∧ i < nextOf n a) := by
  cases a with
  | put u =>
    rcases extend_from _ (show extend env [(n, u)] i = some v from h) with h1 | h1
    · exact Or.inl h1
    · simp only [List.mem_singleton, Prod.mk.injEq] at h1
      simp only [nextOf]
      omega
  | submit fn args k d =>
    simp only [callOf, List.foldl_cons, List.foldl_nil, evalCall] at h
    cases hr : taskResult W env fn args with
    | none => rw [hr] at h; exact Or.inl h
    | some r =>
      rw [hr] at h
      rcases extend_from _ h with h1 | h1
      · exact Or.inl h1
      · have := outputValues_mem h1
        simp only [List.mem_map, List.mem_range] at this
        obtain ⟨j, hj, rfl⟩ := this
        simp only [nextOf]
        omega
  | _ => exact Or.inl h

theorem callOf_old (n : Nat) (a : Act) (env : Nat → Option Val) {i : Nat} (hi : i < n) :
    (callOf n a).foldl (evalCall W) env i = env i := by
  cases a with
  | put u =>
    refine extend_other [(n, u)] env i ?_
    simp only [List.mem_singleton]
    rintro p rfl
    simp only; omega
  | submit fn args k d =>
    simp only [callOf, List.foldl_cons, List.foldl_nil, evalCall]
    cases hr : taskResult W env fn args with
    | none => rfl
    | some r =>
      refine extend_other _ env i ?_
      rintro p hp rfl
      have := outputValues_mem hp
      simp only [List.mem_map, List.mem_range] at this
      obtain ⟨j, hj, he⟩ := this
      omega
  | _ => rfl

theorem callsOf_old : ∀ (acts : List Act) (n : Nat) (env : Nat → Option Val) {i : Nat}, i < n →
    (callsOf n acts).foldl (evalCall W) env i = env i
  | [], _, _, _, _ => rfl
  | a :: as, n, env, i, hi => by
    rw [callsOf, List.foldl_append, callsOf_old as (nextOf n a) _ (by cases a <;> simp [nextOf] <;> omega), callOf_old n a env hi]

/-- Later calls do not change the values. -/
theorem meaning_prefix {n : Nat} (hdom : ∀ i, meaning W calls i ≠ none → i < n) (acts : List Act) :
    Le (meaning W calls) (meaning W (calls ++ callsOf n acts)) := by
  intro i v hv
  rw [meaning, List.foldl_append, callsOf_old acts n _ (hdom i (by rw [hv]; simp))]
  exact hv

/-- Values of outputs come from their call. -/
def MadeBy (W : World) (calls : List Call) : Prop := ∀ fn args outs, Call.submit fn args outs ∈ calls → ∀ o ∈ outs, ∀ v,
  meaning W calls o = some v → ∃ r, taskResult W (meaning W calls) fn args = some r ∧ (o, v) ∈ outputValues outs r

theorem taskResult_mono {D D' : Nat → Option Val} (hle : Le D D') {fn : Nat} {args : List Val} {r : Ret}
    (h : taskResult W D fn args = some r) : taskResult W D' fn args = some r := by
  rw [← h]
  have hall : (∀ i ∈ refsList args, (D i).isSome) ∧ (D fn).isSome := by
    simp only [taskResult] at h
    split at h
    · rename_i hc; exact hc
    · simp at h
  refine taskResult_congr W D' D fn args (fun i hi => ?_) ?_
  · obtain ⟨v, hv⟩ := Option.isSome_iff_exists.1 (hall.1 i hi)
    rw [hle i v hv, hv]
  · obtain ⟨v, hv⟩ := Option.isSome_iff_exists.1 hall.2
    rw [hle fn v hv, hv]

theorem madeBy_step {n : Nat} (a : Act) (hdom : ∀ i, meaning W calls i ≠ none → i < n)
    (hout : ∀ fn args outs, Call.submit fn args outs ∈ calls → ∀ o ∈ outs, o < n) (h : MadeBy W calls) :
    MadeBy W (calls ++ callOf n a) := by
  have hle : Le (meaning W calls) (meaning W (calls ++ callOf n a)) := by
    have := meaning_prefix hdom [a]
    simpa [callsOf] using this
  intro fn args outs hm o ho v hv
  rw [List.mem_append] at hm
  rcases hm with hm | hm
  · have hlt := hout fn args outs hm o ho
    rw [meaning, List.foldl_append, callOf_old n a _ hlt] at hv
    obtain ⟨r, h1, h2⟩ := h fn args outs hm o ho v hv
    exact ⟨r, taskResult_mono hle h1, h2⟩
  · cases a with
    | submit f as k d =>
      simp only [callOf, List.mem_singleton, Call.submit.injEq] at hm
      obtain ⟨rfl, rfl, rfl⟩ := hm
      simp only [List.mem_map, List.mem_range] at ho
      obtain ⟨j, hj, rfl⟩ := ho
      have hnone : meaning W calls (n + j) = none := by
        cases hc : meaning W calls (n + j) with
        | none => rfl
        | some u => have := hdom (n + j) (by rw [hc]; simp); omega
      rw [meaning, List.foldl_append] at hv
      simp only [callOf, List.foldl_cons, List.foldl_nil, evalCall] at hv
      cases hr : taskResult W (meaning W calls) fn args with
      | none =>
        have hr' : taskResult W (calls.foldl (evalCall W) fun _ => none) fn args = none := hr
        rw [hr'] at hv
        have hv' : meaning W calls (n + j) = some v := hv
        rw [hnone] at hv'
        simp at hv'
      | some r =>
        have hr' : taskResult W (calls.foldl (evalCall W) fun _ => none) fn args = some r := hr
        rw [hr'] at hv
        rcases extend_from _ hv with h1 | h1
        · have hv' : meaning W calls (n + j) = some v := h1
          rw [hnone] at hv'
          simp at hv'
        · exact ⟨r, taskResult_mono hle hr, h1⟩
    | put u => simp [callOf] at hm
    | _ => simp [callOf] at hm

theorem mem_calls_submits {fn : Nat} {args : List Val} {outs : List Nat} (calls : List Call) :
    (fn, args, outs) ∈ submits calls ↔ Call.submit fn args outs ∈ calls := by
  simp only [submits, List.mem_filterMap]
  constructor
  · rintro ⟨k, hk, h⟩
    cases k with
    | submit f a o =>
      simp only [Option.some.injEq, Prod.mk.injEq] at h
      obtain ⟨rfl, rfl, rfl⟩ := h
      exact hk
    | put i v => simp at h
  · intro h; exact ⟨_, h, rfl⟩

theorem Inv.sub_call (h : Inv W isW m c calls subs) {s : Sub} (hs : s ∈ subs) : Call.submit s.fn s.args s.outs ∈ calls := by
  rw [← mem_calls_submits, h.submits, List.mem_map]
  exact ⟨s, hs, rfl⟩

theorem Inv.call_bound (h : Inv W isW m c calls subs) {fn : Nat} {args : List Val} {outs : List Nat}
    (hc : Call.submit fn args outs ∈ calls) : ∀ o ∈ outs, o < c.root.nextId := by
  rw [← mem_calls_submits, h.submits, List.mem_map] at hc
  obtain ⟨s, hs, he⟩ := hc
  simp only [Prod.mk.injEq] at he
  obtain ⟨-, -, rfl⟩ := he
  exact (h.bound s hs).2.2

theorem Inv.made (h : Inv W isW m c calls subs) (hm : MadeBy W calls) : Made (ctx W m c calls subs) :=
  fun s hs o ho v hv => hm _ _ _ (h.sub_call hs) o ho v hv

/-- A later program context. -/
theorem live_ctx {x x' : Ctx} (hg : ∀ t, Good x' t → Good x t)
    (hD : ∀ d, isW d = true → ∀ r ∈ (c.worker d).log, ∀ o ∈ r.outs, x'.D o ≠ none → x.D o ≠ none) (l : Live x isW c H) :
    Live x' isW c H :=
  { l with
    wl := fun d hd =>
      let k := l.wl d hd
      ⟨fun r hr o ho hn => k.log r hr o ho (hD d hd r hr o ho hn), k.held, k.order, k.run⟩
    served := fun d hd t ht => l.served d hd t (hg t ht) }

/-- One step; the program context is the one before it. -/
theorem live_step (hsy : Sync (ctx W m c calls subs)) (hmk : Made (ctx W m c calls subs)) {a : Act} (h0 : isW 0 = false)
    (hm0 : m ≠ 0) (h : Inv W isW m c calls subs) (l : Live (ctx W m c calls subs) isW c H) {c' : Cluster} (hs : c.step W isW a = some (.ok c')) :
    ∃ H', Live (ctx W m c calls subs) isW c' H' ∧ (callOf c.root.nextId a ≠ [] → c'.worker = c.worker) := by
  cases a with
  | put v =>
    simp only [Cluster.step] at hs
    split at hs
    · simp at hs
    · rename_i hw
      simp only [Option.some.injEq, Except.ok.injEq] at hs
      subst hs
      exact ⟨H, live_put l v (by simpa using hw), fun _ => rfl⟩
  | submit fn args n dest =>
    simp only [Cluster.step] at hs
    split at hs
    · simp at hs
    · rename_i hw
      simp only [Bool.or_eq_true, Bool.not_eq_true', not_or, Bool.not_eq_false, Bool.not_eq_true, Option.isSome_eq_false_iff,
        Option.isNone_iff_eq_none] at hw
      split at hs
      · simp at hs
      · rename_i r1 l1 p1
        split at hs
        · simp at hs
        · rename_i r2 l2 p2
          simp only [Option.some.injEq, Except.ok.injEq] at hs
          subst hs
          exact ⟨H, live_submit l h hw.1.1 hw.1.2 h0 p1 p2, fun _ => rfl⟩
  | get ids =>
    simp only [Cluster.step] at hs
    split at hs
    · simp at hs
    · rename_i hw
      have hw : c.root.waiting = none := by simpa using hw
      split at hs
      · rename_i hemp
        simp only [Option.some.injEq, Except.ok.injEq] at hs
        subst hs
        refine ⟨H, live_getNow l ids hw ?_, fun hc => absurd rfl hc⟩
        intro i hi hn
        rw [List.isEmpty_iff, List.filter_eq_nil_iff] at hemp
        exact hemp i hi (by rw [hn]; rfl)
      · split at hs
        · rename_i hall
          simp only [Option.some.injEq, Except.ok.injEq] at hs
          subst hs
          refine ⟨H, live_getWait l hw h h0 ids ?_, fun hc => absurd rfl hc⟩
          intro i hi
          rw [List.all_eq_true] at hall
          exact Option.isSome_iff_ne_none.1 (hall i hi)
        · simp at hs
  | reply src =>
    simp only [Cluster.step] at hs
    split at hs
    · rename_i wt id v t hw hc
      split at hs
      · rename_i hid
        simp only [Option.some.injEq, Except.ok.injEq] at hs
        have := live_reply l h hw hc hid h0
        rw [hs] at this
        exact ⟨H, this, fun hc => absurd rfl hc⟩
      · simp at hs
    · simp at hs
  | deliver src dst =>
    simp only [Cluster.step] at hs
    split at hs
    · rename_i hd
      split at hs
      · simp at hs
      · rename_i k t hc
        split at hs
        · simp at hs
        · rename_i w' hh
          simp only [Option.some.injEq, Except.ok.injEq] at hs
          subst hs
          exact ⟨_, live_deliver hsy hmk h l h0 hm0 hd hc hh, fun hc => absurd rfl hc⟩
    · simp at hs
  | complete w i =>
    simp only [Cluster.step] at hs
    split at hs
    · rename_i hd
      have := (l.wl w hd.1).run
      rw [this] at hd
      simp at hd
    · simp at hs

theorem live_run (hP : W.Plain) (h0 : isW 0 = false) (hm0 : m ≠ 0) {all : List Call}
    (hsync : ∀ fn args outs, Call.submit fn args outs ∈ all → ∀ f, meaning W all fn = some (.code f) → W.isAsync f = false) :
    ∀ (acts : List Act) {c c' : Cluster} {calls : List Call} {subs : List Sub} {H : Nat → List Req},
    Inv W isW m c calls subs → Live (ctx W m c calls subs) isW c H → MadeBy W calls →
    (∀ a ∈ acts, PlainAct a) → calls ++ callsOf c.root.nextId acts = all → c.run W isW acts = some c' →
    ∃ H' subs', Inv W isW m c' all subs' ∧ Live (ctx W m c' all subs') isW c' H' ∧ MadeBy W all
  | [], c, c', calls, subs, H, h, l, hmk, _, hall, hr => by
    simp only [Cluster.run, Option.some.injEq] at hr
    subst hr
    simp only [callsOf, List.append_nil] at hall
    subst hall
    exact ⟨H, subs, h, l, hmk⟩
  | a :: as, c, c', calls, subs, H, h, l, hmk, hp, hall, hr => by
    simp only [Cluster.run] at hr
    split at hr
    · rename_i c1 hs
      obtain ⟨l1, h1, hn⟩ := inv_step hP h0 h (hp a (by simp)) hs
      have hsy : Sync (ctx W m c calls subs) := by
        intro s hsm f hD
        have hle := meaning_prefix h.dom (a :: as)
        rw [hall] at hle
        exact hsync s.fn s.args s.outs (by rw [← hall]; exact List.mem_append_left _ (h.sub_call hsm)) f (hle _ _ hD)
      obtain ⟨H1, k1, hwk⟩ := live_step hsy (h.made hmk) h0 hm0 h l hs
      have hmk1 := madeBy_step a h.dom (fun fn args outs hc => h.call_bound hc) hmk
      have hlo : ∀ o, o < c.root.nextId → meaning W (calls ++ callOf c.root.nextId a) o = meaning W calls o := by
        intro o ho
        rw [meaning, List.foldl_append, callOf_old _ _ _ ho]
        rfl
      have k2 : Live (ctx W m c1 (calls ++ callOf c.root.nextId a) (subs ++ l1)) isW c1 H1 := by
        refine live_ctx ?_ ?_ k1
        · intro t ht s hs' ho
          have := ht s (List.mem_append_left _ hs') ho
          simp only [ctx] at this ⊢
          rw [hlo t ((h.bound s hs').2.2 t ho)] at this
          exact this
        · intro d hd r hr o ho hD
          simp only [ctx] at hD ⊢
          by_cases hnil : callOf c.root.nextId a = []
          · rw [hnil, List.append_nil] at hD; exact hD
          · rw [hwk hnil] at hr
            obtain ⟨s, e1, -, -, e4, -⟩ := (h.worker d hd).log r hr
            rw [hlo o ((h.bound s (List.mem_of_getElem? e1)).2.2 o (by rw [← e4]; exact ho))] at hD
            exact hD
      exact live_run hP h0 hm0 hsync as h1 k2 hmk1 (fun b hb => hp b (List.mem_cons_of_mem _ hb))
        (by rw [hn, ← hall]; simp [callsOf, List.append_assoc]) hr
    · simp at hr

theorem mem_tagsFor {subs : List Sub} {t d : Nat} : t ∈ tagsFor subs d ↔ ∃ s, subs[t]? = some s ∧ s.dest = d := by
  simp only [tagsFor, List.mem_filter, List.mem_range]
  constructor
  · rintro ⟨h1, h2⟩
    rw [Option.any_eq_true] at h2
    obtain ⟨s, hs, he⟩ := h2
    exact ⟨s, hs, by simpa using he⟩
  · rintro ⟨s, hs, rfl⟩
    refine ⟨(List.getElem?_eq_some_iff.1 hs).1, ?_⟩
    rw [hs]; simp

/-- A submitted task was executed, is held back or its request is under way. -/
theorem Inv.where_task (h : Inv W isW m c calls subs) (hq : ∀ s d, isW d = true → c.chan s d = []) {t : Nat} {s : Sub}
    (hs : subs[t]? = some s) : isW s.dest = true ∧
      ((∃ r ∈ (c.worker s.dest).log, r.tag = t ∧ r.outs = s.outs) ∨ ∃ r ∈ (c.worker s.dest).pending, r.tag = t) := by
  have hw := (h.early t s hs).1
  have hmem : t ∈ tagsFor subs s.dest := mem_tagsFor.2 ⟨s, hs, rfl⟩
  rw [← (h.tags _ hw).mem_iff, hq 0 _ hw] at hmem
  simp only [execTags, List.filterMap_nil, List.append_nil, List.mem_append, Verif.Worker.tags, List.mem_map] at hmem
  refine ⟨hw, hmem.imp_left ?_⟩
  rintro ⟨r, hr, ht⟩
  obtain ⟨s2, d1, -, -, d4, -⟩ := (h.worker _ hw).log r hr
  refine ⟨r, hr, ht, ?_⟩
  have d1' : subs[r.tag]? = some s2 := d1
  rw [ht, hs] at d1'
  simp only [Option.some.injEq] at d1'
  rw [d4, d1']

theorem made_args (hmk : MadeBy W calls) {s : Sub} (hs : Call.submit s.fn s.args s.outs ∈ calls) {i : Nat} (hi : i ∈ s.outs)
    (hD : meaning W calls i ≠ none) : ∀ j ∈ refsList s.args, meaning W calls j ≠ none := by
  obtain ⟨v, hv⟩ := Option.ne_none_iff_exists'.1 hD
  obtain ⟨r, hr, -⟩ := hmk _ _ _ hs i hi v hv
  intro j hj
  simp only [taskResult] at hr
  split at hr
  · rename_i hc; exact Option.isSome_iff_ne_none.1 (hc.1 j hj)
  · simp at hr

/-- If no message to a worker is under way then only tasks that have an argument without value are held back. -/
theorem no_pending (h : Inv W isW m c calls subs) (l : Live (ctx W m c calls subs) isW c H) (hmk : MadeBy W calls)
    (hq : ∀ s d, isW d = true → c.chan s d = []) :
    ∀ (t d : Nat), isW d = true → ∀ r ∈ (c.worker d).pending, r.tag = t →
      (∀ i ∈ refsList r.args, meaning W calls i ≠ none) → False := by
  intro t
  induction t using Nat.strongRecOn with
  | ind t ih =>
    intro d hd r hr ht hall
    obtain ⟨⟨i, hi, hn⟩, hask⟩ := (l.wl d hd).held r hr
    obtain ⟨⟨s, c1, c2, c3, c4, c5, c6, c7⟩, hk, -⟩ := h.pend d hd r hr
    rcases hk i hi with hc | hc
    · exact hc hn
    · obtain ⟨o, ho⟩ := Option.ne_none_iff_exists'.1 hc
      have hoo : c.root.owner i = some o := (h.worker d hd).owner i o ho
      obtain ⟨-, how, t', s', hs', his, hdest⟩ := h.own i o hoo
      have hlt := (h.early r.tag s c1).2 i (c6 i hi) t' s' hs' his
      have hDi := hall i hi
      have hsm : s' ∈ subs := List.mem_of_getElem? hs'
      -- the producing task was executed
      have hst : (c.worker o).store i ≠ none := by
        obtain ⟨-, ⟨r', hr', -, ho'⟩ | ⟨r', hr', ht'⟩⟩ := h.where_task hq hs'
        · rw [hdest] at hr'
          exact (l.wl o how).log r' hr' i (by rw [ho']; exact his) hDi
        · rw [hdest] at hr'
          obtain ⟨⟨s2, e1, -, -, -, -, e6, -⟩, -⟩ := h.pend o how r' hr'
          have e1' : subs[r'.tag]? = some s2 := e1
          rw [ht', hs'] at e1'
          simp only [Option.some.injEq] at e1'
          subst e1'
          exact (ih t' (by omega) o how r' hr' ht' (fun j hj => made_args hmk (h.sub_call hsm) his hDi j (e6 j hj))).elim
      have hgood : Good (ctx W m c calls subs) i := fun _ _ _ => hDi
      have hrank : (c.worker d).rank = d := (h.worker d hd).rank
      by_cases hod : o = d
      · subst hod; exact hst hn
      · have hreq := hask i hi hn o ho (by rw [hrank]; exact hod)
        obtain ⟨o', ho', hx⟩ := l.asked d hd i hreq
        rw [hoo] at ho'
        simp only [Option.some.injEq] at ho'
        subst ho'
        rcases hx with hx | hx | hx
        · rw [hq d o how] at hx; simp at hx
        · have hS := l.served o how i hgood
          rcases hS.all (i, d, false) hx rfl with h1 | ⟨-, h1⟩ | ⟨h1, -⟩
          · rcases l.sentW o d how hd i h1 with ⟨k, hk, -⟩ | h2
            · rw [hq o d hd] at hk; simp at hk
            · exact h2 hn
          · rcases (hS.nb _ h1).1 with h2 | h2
            · simp at h2
            · exact hst h2
          · simp at h1
        · exact hx hn

/-- If no message to a worker is under way then every task whose arguments have values was executed. -/
theorem task_done (h : Inv W isW m c calls subs) (l : Live (ctx W m c calls subs) isW c H) (hmk : MadeBy W calls)
    (hq : ∀ s d, isW d = true → c.chan s d = []) {t : Nat} {s : Sub} (hs : subs[t]? = some s)
    (hall : ∀ i ∈ refsList s.args, meaning W calls i ≠ none) :
    isW s.dest = true ∧ ∃ r ∈ (c.worker s.dest).log, r.tag = t ∧ r.outs = s.outs := by
  obtain ⟨hw, h1 | ⟨r', hr', ht'⟩⟩ := h.where_task hq hs
  · exact ⟨hw, h1⟩
  · obtain ⟨⟨s2, e1, -, -, -, -, e6, -⟩, -⟩ := h.pend _ hw r' hr'
    have e1' : subs[r'.tag]? = some s2 := e1
    rw [ht', hs] at e1'
    simp only [Option.some.injEq] at e1'
    subst e1'
    exact (no_pending h l hmk hq t _ hw r' hr' ht' (fun j hj => hall j (e6 j hj))).elim

/-- If nothing is under way then the main process waits only for a reference without value. -/
theorem no_waiting (h : Inv W isW m c calls subs) (l : Live (ctx W m c calls subs) isW c H) (hmk : MadeBy W calls)
    (hq : ∀ s d, isW d = true → c.chan s d = [])
    (hq0 : ∀ s i, i ∈ dataIds (c.chan s 0) → ∀ wt, c.root.waiting = some wt → i ∉ wt.remote) (wt : Waiting)
    (hw : c.root.waiting = some wt) (hD : ∀ i ∈ wt.remote, meaning W calls i ≠ none) (hnd : wt.remote.Nodup) : False := by
  obtain ⟨a2, a3⟩ := l.wait wt hw
  have hall : (wt.remote.filter fun i => (c.root.store i).isNone) = [] := by
    rw [List.filter_eq_nil_iff]
    intro i hi hn
    have hn' : c.root.store i = none := by simpa using hn
    obtain ⟨o, ho, hx⟩ := a3 i hi hn'
    obtain ⟨-, how, t', s', hs', his, hdest⟩ := h.own i o ho
    have hDi := hD i hi
    rcases hx with hx | hx
    · rw [hq 0 o how] at hx; simp at hx
    · obtain ⟨-, r', hr', -, ho'⟩ := task_done h l hmk hq hs'
        (made_args hmk (h.sub_call (List.mem_of_getElem? hs')) his hDi)
      rw [hdest] at hr'
      have hst : (c.worker o).store i ≠ none := (l.wl o how).log r' hr' i (by rw [ho']; exact his) hDi
      have hS := l.served o how i (fun _ _ _ => hDi)
      rcases hS.all (i, 0, true) hx rfl with h1 | ⟨h1, -⟩ | ⟨-, h1⟩
      · rcases l.sentR o how i h1 with h2 | h2
        · exact hq0 o i h2 wt hw hi
        · exact h2 hn'
      · simp at h1
      · rcases (hS.b _ h1).1 with h2 | h2
        · simp at h2
        · exact hst h2
  obtain ⟨got, -, -, -, hpos, -⟩ := h.wait wt hw
  rw [a2 hnd, hall] at hpos
  simp at hpos

end Verif.Cluster
