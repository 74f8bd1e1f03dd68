import Verif.Lemmas.WorkerStep

/-! Lemmas about the sequential meaning: new calls do not change earlier values. -/
namespace Verif.Worker
open Verif.Spec

theorem extend_other : ∀ (l : List (Nat × Val)) (env : Nat → Option Val) (i : Nat), (∀ p ∈ l, p.1 ≠ i) →
    extend env l i = env i
  | [], env, i, _ => rfl
  | p :: l, env, i, h => by
    have := extend_other l (fun j => if j = p.1 then some p.2 else env j) i (fun q hq => h q (List.mem_cons_of_mem _ hq))
    simp only [extend, List.foldl_cons] at this ⊢
    rw [this, if_neg]
    exact fun hc => h p (by simp) hc.symm

theorem extend_mem : ∀ (l : List (Nat × Val)) (env : Nat → Option Val), (l.map (·.1)).Nodup → ∀ p ∈ l,
    extend env l p.1 = some p.2
  | [], env, _, p, hp => by simp at hp
  | q :: l, env, hn, p, hp => by
    simp only [List.map_cons, List.nodup_cons] at hn
    rw [List.mem_cons] at hp
    rcases hp with rfl | hp
    · have := extend_other l (fun j => if j = p.1 then some p.2 else env j) p.1 (fun q hq hc =>
        hn.1 (List.mem_map.2 ⟨q, hq, hc⟩))
      simp only [extend, List.foldl_cons] at this ⊢
      rw [this]; simp
    · have := extend_mem l (fun j => if j = q.1 then some q.2 else env j) hn.2 p hp
      simpa [extend] using this

theorem extend_cases (l : List (Nat × Val)) (env : Nat → Option Val) (i : Nat) (v : Val) (h : extend env l i = some v) :
    env i = some v ∨ (i, v) ∈ l := by
  induction l generalizing env with
  | nil => exact Or.inl h
  | cons p l ih =>
    simp only [extend, List.foldl_cons] at h ih
    rcases ih _ h with h1 | h1
    · split at h1
      · rename_i hi
        simp only [Option.some.injEq] at h1
        subst hi
        right
        rw [← h1]
        simp
      · exact Or.inl h1
    · exact Or.inr (List.mem_cons_of_mem _ h1)

theorem zip_fst_sublist : ∀ (a : List Nat) (b : List Val), ((a.zip b).map (·.1)).Sublist a
  | [], _ => by simp
  | _ :: _, [] => by simp
  | x :: a, y :: b => by
    simp only [List.zip_cons_cons, List.map_cons]
    exact (zip_fst_sublist a b).cons_cons x

theorem outputValues_fst (outs : List Nat) (r : Ret) : ((outputValues outs r).map (·.1)).Sublist outs := by
  cases r with
  | raise e => simp [outputValues, Function.comp_def]
  | ret v =>
    match outs, v with
    | [], .list vs => simp [outputValues]
    | [], .data _ => simp [outputValues]
    | [], .exc _ => simp [outputValues]
    | [], .code _ => simp [outputValues]
    | [], .ref _ => simp [outputValues]
    | [o], v => simp [outputValues]
    | a :: b :: t, .list vs =>
      simp only [outputValues]
      exact zip_fst_sublist _ _
    | a :: b :: t, .data _ => simp [outputValues]
    | a :: b :: t, .exc _ => simp [outputValues]
    | a :: b :: t, .code _ => simp [outputValues]
    | a :: b :: t, .ref _ => simp [outputValues]

theorem refsList_nil_iff : ∀ vs : List Val, refsList vs = [] ↔ ∀ v ∈ vs, refs v = []
  | [] => by simp [refsList]
  | v :: vs => by simp [refsList, refsList_nil_iff vs]

/-- Results of user functions contain no references. -/
def World.Plain (W : World) : Prop := ∀ c args v, refsList args = [] → W.call c args = .ret v → refs v = []

theorem outputValues_plain (outs : List Nat) (r : Ret) (h : ∀ v, r = .ret v → refs v = []) :
    ∀ p ∈ outputValues outs r, refs p.2 = [] := by
  intro p hp
  cases r with
  | raise e =>
    simp only [outputValues, List.mem_map] at hp
    obtain ⟨o, -, rfl⟩ := hp
    rfl
  | ret v =>
    have hv := h v rfl
    match outs, v with
    | [o], v =>
      simp only [outputValues, List.mem_singleton] at hp
      subst hp
      exact hv
    | [], .list vs => simp [outputValues] at hp
    | [], .data _ => simp [outputValues] at hp
    | [], .exc _ => simp [outputValues] at hp
    | [], .code _ => simp [outputValues] at hp
    | [], .ref _ => simp [outputValues] at hp
    | a :: b :: t, .list vs =>
      simp only [outputValues] at hp
      simp only [refs] at hv
      exact (refsList_nil_iff vs).1 hv p.2 (List.of_mem_zip hp).2
    | a :: b :: t, .data _ => simp [outputValues] at hp
    | a :: b :: t, .exc _ => simp [outputValues] at hp
    | a :: b :: t, .code _ => simp [outputValues] at hp
    | a :: b :: t, .ref _ => simp [outputValues] at hp

theorem taskResult_congr (W : World) (f g : Nat → Option Val) (fn : Nat) (args : List Val)
    (h : ∀ i ∈ refsList args, f i = g i) (hf : f fn = g fn) : taskResult W f fn args = taskResult W g fn args := by
  simp only [taskResult]
  rw [substList_congr f g args h, hf]
  have : (∀ i ∈ refsList args, (f i).isSome = true) ↔ ∀ i ∈ refsList args, (g i).isSome = true :=
    ⟨fun k i hi => by rw [← h i hi]; exact k i hi, fun k i hi => by rw [h i hi]; exact k i hi⟩
  simp only [this]

theorem taskResult_plain {W : World} (hW : W.Plain) {env : Nat → Option Val} (hc : Closed env) {fn : Nat} {args : List Val}
    {v : Val} (h : taskResult W env fn args = some (.ret v)) : refs v = [] := by
  simp only [taskResult] at h
  split at h
  · rename_i hall
    split at h
    · simp at h
    · split at h
      · rename_i c hcd
        simp only [Option.some.injEq] at h
        apply hW c _ v _ h
        apply List.eq_nil_iff_forall_not_mem.2
        intro i hi
        have := (refsList_subst env hc args i).1 hi
        have h2 := hall.1 i this.1
        rw [this.2] at h2
        simp at h2
      · simp at h
  · simp at h

/-- `N` bounds the references of a submission. -/
def Bounded (N : Nat) (s : Sub) : Prop := (∀ i ∈ refsList s.args, i < N) ∧ s.fn < N ∧ ∀ o ∈ s.outs, o < N

/-- A later program context. -/
structure Ext (x x' : Ctx) (N : Nat) : Prop where
  W : x'.W = x.W
  monitor : x'.monitor = x.monitor
  D : ∀ i, i < N → x'.D i = x.D i
  dom : ∀ i, x.D i ≠ none → i < N
  own : ∀ i o, x.own i = some o → x'.own i = some o
  subs : ∃ l, x'.subs = x.subs ++ l
  bound : ∀ s ∈ x.subs, Bounded N s

theorem Ext.le {x x' : Ctx} {N : Nat} (e : Ext x x' N) {i : Nat} {v : Val} (h : x.D i = some v) : x'.D i = some v := by
  rw [e.D i (e.dom i (by rw [h]; simp))]; exact h

theorem Ext.ne {x x' : Ctx} {N : Nat} (e : Ext x x' N) {i : Nat} (h : x.D i ≠ none) : x'.D i ≠ none := by
  rw [e.D i (e.dom i h)]; exact h

theorem Ext.sub {x x' : Ctx} {N : Nat} (e : Ext x x' N) {t : Nat} {s : Sub} (h : x.subs[t]? = some s) :
    x'.subs[t]? = some s := by
  obtain ⟨l, hl⟩ := e.subs
  rw [hl, List.getElem?_append_left (List.getElem?_eq_some_iff.1 h).1]; exact h

theorem Ext.result {x x' : Ctx} {N : Nat} (e : Ext x x' N) {s : Sub} (hs : s ∈ x.subs) :
    taskResult x'.W x'.D s.fn s.args = taskResult x.W x.D s.fn s.args := by
  obtain ⟨b1, b2, -⟩ := e.bound s hs
  rw [e.W]
  exact taskResult_congr _ _ _ _ _ (fun i hi => e.D i (b1 i hi)) (e.D _ b2)

theorem corr_ext {x x' : Ctx} {N : Nat} (e : Ext x x' N) {d : Nat} {r : Request} (h : Corr x d r) : Corr x' d r := by
  obtain ⟨s, c1, c2, c3, c4, c5, c6, c7⟩ := h
  have b := e.bound s (List.mem_of_getElem? c1)
  refine ⟨s, e.sub c1, c2, c3, c4, ?_, c6, fun i hi => (c7 i hi).imp_right e.ne⟩
  rw [substList_congr x'.D x.D s.args (fun i hi => e.D i (b.1 i hi)),
    substList_congr x'.D x.D r.args (fun i hi => e.D i (b.1 i (c6 i hi)))]
  exact c5

theorem ready_ext {x x' : Ctx} {N : Nat} (e : Ext x x' N) {d : Nat} {w : Worker} {r : Request} (h : Ready x d w r) :
    Ready x' d w r := ⟨corr_ext e h.1, h.2⟩

theorem done_ext {x x' : Ctx} {N : Nat} (e : Ext x x' N) {d : Nat} {r : Request} (h : Done x d r) : Done x' d r := by
  obtain ⟨s, c1, c2, c3, c4, c5, c6, c7⟩ := h
  have b := e.bound s (List.mem_of_getElem? c1)
  refine ⟨s, e.sub c1, c2, c3, c4, ?_, fun i hi => e.ne (c6 i hi), e.ne c7⟩
  rw [substList_congr x'.D x.D s.args (fun i hi => e.D i (b.1 i hi))]
  exact c5

theorem outOK_ext {x x' : Ctx} {N : Nat} (e : Ext x x' N) {d : Nat} {p : Nat × Msg} (h : OutOK x d p) : OutOK x' d p := by
  obtain ⟨a, m⟩ := p
  cases m with
  | get src id b => exact ⟨h.1, h.2.1, e.own _ _ h.2.2.1, h.2.2.2⟩
  | putData id v => exact ⟨e.le h.1, h.2.1, e.own _ _ h.2.2⟩
  | data id v => exact ⟨e.le h.1, h.2.1, e.own _ _ h.2.2⟩
  | taskDone ids => exact Eq.trans h e.monitor.symm
  | _ => exact absurd h id

theorem msgOK_ext {x x' : Ctx} {N : Nat} (e : Ext x x' N) {s d : Nat} {m : Msg} (h : MsgOK x s d m) : MsgOK x' s d m := by
  cases m with
  | execute r => exact ⟨h.1, corr_ext e h.2⟩
  | get src id b => exact ⟨h.1, e.own _ _ h.2.1, h.2.2⟩
  | putData id v => exact ⟨e.le h.1, h.2⟩
  | putOwner id o => exact e.own _ _ h
  | data id v => exact ⟨e.le h.1, h.2.1, e.own _ _ h.2.2⟩
  | taskDone ids => exact Eq.trans h e.monitor.symm
  | _ => exact absurd h id

theorem wi_ext {x x' : Ctx} {N : Nat} (e : Ext x x' N) {d : Nat} {s0 : List (Nat × Nat)} {w : Worker} (h : WI x d s0 w) :
    WI x' d s0 w := by
  refine ⟨h.rank, h.monitor.trans e.monitor.symm, fun i v hv => e.le (h.store i v hv), fun i o ho => e.own i o (h.owner i o ho),
    fun p hp => ⟨e.own _ _ (h.nb p hp).1, (h.nb p hp).2⟩, fun p hp => ⟨e.own _ _ (h.b p hp).1, (h.b p hp).2⟩, h.act, ?_,
    fun r hr => done_ext e (h.log r hr), fun p hp => outOK_ext e (h.out p hp), h.sent, h.nodup⟩
  intro k hk
  obtain ⟨s, hs, e1, e2, e3⟩ := h.run k hk
  obtain ⟨l, hl⟩ := e.subs
  exact ⟨s, by rw [hl]; exact List.mem_append_left _ hs, e1, e2, by rw [e.result hs]; exact e3⟩

end Verif.Worker
