import Verif.Lemmas.WorldIndep
import Verif.Lemmas.Origin
import Verif.Lemmas.Decide

/-! Properties of runs of the main process and the workers (C32–C36, C41–C43, C49). -/
namespace Verif.Cluster
open Verif.Spec
open Verif.Worker

variable {W : World} {isW : Nat → Bool} {m : Nat} {acts : List Act} {c : Cluster}

theorem run_inv (hW : ∀ f args v, refsList args = [] → W.call f args = .ret v → refs v = [])
    (hput : ∀ v, Act.put v ∈ acts → refs v = []) (h0 : isW 0 = false) (hr : (Cluster.init m).run W isW acts = some c) :
    ∃ subs, Inv W isW m c (callsOf 0 acts) subs := by
  obtain ⟨l, hl⟩ := inv_run hW h0 acts (inv_init W isW m) (fun a ha => by cases a <;> first | exact hput _ ha | trivial) hr
  exact ⟨_, hl⟩

theorem mem_submits {calls : List Call} {fn : Nat} {args : List Val} {outs : List Nat} :
    (fn, args, outs) ∈ Spec.submits calls ↔ Call.submit fn args outs ∈ calls := by
  simp only [submits, List.mem_filterMap]
  constructor
  · rintro ⟨k, hk, h⟩
    cases k with
    | put id v => simp at h
    | submit f a o =>
      simp only [Option.some.injEq, Prod.mk.injEq] at h
      obtain ⟨rfl, rfl, rfl⟩ := h
      exact hk
  · intro h
    exact ⟨_, h, rfl⟩

theorem Inv.sub_of {calls : List Call} {subs : List Sub} (h : Inv W isW m c calls subs) {fn : Nat} {args : List Val}
    {outs : List Nat} (hs : (fn, args, outs) ∈ Spec.submits calls) : ∃ s ∈ subs, s.fn = fn ∧ s.args = args ∧ s.outs = outs := by
  rw [h.submits, List.mem_map] at hs
  obtain ⟨s, hs, he⟩ := hs
  simp only [Prod.mk.injEq] at he
  exact ⟨s, hs, he⟩

theorem Inv.mem_submits {calls : List Call} {subs : List Sub} (h : Inv W isW m c calls subs) {s : Sub} (hs : s ∈ subs) :
    (s.fn, s.args, s.outs) ∈ Spec.submits calls := by
  rw [h.submits]; exact List.mem_map_of_mem (f := fun s : Sub => (s.fn, s.args, s.outs)) hs

theorem Inv.nodupTags {calls : List Call} {subs : List Sub} (h : Inv W isW m c calls subs) {d : Nat} (hd : isW d = true) :
    (Verif.Worker.tags (c.worker d).log).Nodup := by
  have h1 : (tagsFor subs d).Nodup := List.Nodup.filter _ List.nodup_range
  have h2 := (h.tags d hd).nodup_iff.2 h1
  rw [List.nodup_append, List.nodup_append] at h2
  exact h2.1.1

theorem Inv.resultOK {calls : List Call} {subs : List Sub} (h : Inv W isW m c calls subs) {p : List Nat × GetResult}
    (hp : p ∈ c.root.results) : ∃ pre, ResOK (meaning W calls) c.root.owner pre p.1 p.2 := by
  obtain ⟨pre, post, he⟩ := List.append_of_mem hp
  exact ⟨pre, h.results pre p.1 p.2 post he⟩

/-- What a worker that handles its next operation can do wrong. -/
theorem Inv.deliver_error {calls : List Call} {subs : List Sub} (h : Inv W isW m c calls subs) {s d : Nat} {e : Crash}
    (hs : c.step W isW (.deliver s d) = some (.error e)) : UserError (ctx W m c calls subs) e := by
  simp only [Cluster.step] at hs
  split at hs
  · rename_i hd
    split at hs
    · simp at hs
    · rename_i k t hc
      split at hs
      · rename_i e' he
        simp only [Option.some.injEq, Except.error.injEq] at hs
        subst hs
        have hk : k ∈ c.chan s d := by rw [hc]; simp
        have hm := h.chan s d k hk
        refine handle_error h.ok (h.worker d hd) (h.pend d hd) hm ?_ he
        cases k with
        | execute r =>
          obtain ⟨hs0, -⟩ := hm
          subst hs0
          have hf := h.fifo d hd
          rw [hc] at hf
          exact hf.1
        | _ => trivial
      · simp at hs
  · simp at hs

/-- A state without possible action. -/
theorem stuck {W : World} {isW : Nat → Bool} {m : Nat} {acts : List Act} {c : Cluster} {wt : Waiting}
    (hrun : (Cluster.init m).run W isW acts = some c) (hw : c.root.waiting = some wt)
    (hin : ∀ s d, (s = 0 ∨ isW s = true) → d = 0 ∨ isW d = true → c.chan s d = [])
    (hco : ∀ d, isW d = true → (c.worker d).running = []) (a : Act) : c.step W isW a = none := by
  have hno : ∀ s d, d = 0 ∨ isW d = true → c.chan s d = [] := by
    intro s d hd
    by_cases hs : s = 0 ∨ isW s = true
    · exact hin s d hs hd
    · simp only [not_or, Bool.not_eq_true] at hs
      exact senders_run acts (fun _ _ _ _ => rfl) hrun s d hs.1 hs.2
  cases a with
  | put v => simp [Cluster.step, hw]
  | submit fn args n d => simp [Cluster.step, hw]
  | get ids => simp [Cluster.step, hw]
  | reply src => simp [Cluster.step, hw, hno src 0 (Or.inl rfl)]
  | deliver s d =>
    simp only [Cluster.step]
    split
    · rename_i hd
      rw [hno s d (Or.inr hd)]
    · rfl
  | complete d i =>
    simp only [Cluster.step]
    rw [if_neg]
    rintro ⟨hd, hi⟩
    rw [hco d hd] at hi
    simp at hi

theorem firstFailure_append {a t : List Val} {e : Nat} (h : ∀ v ∈ a, ∀ k, v ≠ .exc k) :
    firstFailure (a ++ .exc e :: t) = some e := by
  induction a with
  | nil => rfl
  | cons v a ih =>
    have h1 := ih (fun u hu => h u (List.mem_cons_of_mem _ hu))
    have h2 := h v (by simp)
    cases v with
    | exc k => exact absurd rfl (h2 k)
    | _ => simpa [firstFailure] using h1

end Verif.Cluster

namespace Verif.Props
open Verif.Spec
open Verif.Worker
open Verif.Cluster

/-! ## C32 Results do not depend on the schedule -/

section C32
variable {W : World} {isW : Nat → Bool} {m : Nat} {acts : List Act} {c : Cluster}

/-- Every `get` that returned gave the values of the sequential evaluation, every `get` that raised gave the error of one
of its references. User functions are pure and get and return no references inside values. -/
theorem C32_results_sequential
    (hcode : ∀ f args v, refsList args = [] → W.call f args = .ret v → refs v = [])
    (hput : ∀ v, Act.put v ∈ acts → refs v = []) (h0 : isW 0 = false)
    (hrun : (Cluster.init m).run W isW acts = some c) :
    (∀ ids vs, (ids, GetResult.values vs) ∈ c.root.results → ids.map (meaning W (callsOf 0 acts)) = vs.map some) ∧
    ∀ ids e, (ids, GetResult.raised e) ∈ c.root.results → ∃ i ∈ ids, meaning W (callsOf 0 acts) i = some (.exc e) := by
  obtain ⟨subs, h⟩ := run_inv hcode hput h0 hrun
  constructor
  · intro ids vs hp
    obtain ⟨pre, hr⟩ := h.resultOK hp
    exact hr.1
  · intro ids e hp
    obtain ⟨pre, hr⟩ := h.resultOK hp
    exact hr

/-- Two runs of the same calls, with any numbers of workers, any assignment of tasks to workers and any order of
messages: equal `get` calls that return values return equal values. -/
theorem C32_schedule_independent
    (hcode : ∀ f args v, refsList args = [] → W.call f args = .ret v → refs v = [])
    (hput : ∀ v, Act.put v ∈ acts → refs v = []) (h0 : isW 0 = false)
    (hrun : (Cluster.init m).run W isW acts = some c)
    {isW' : Nat → Bool} {m' : Nat} {acts' : List Act} {c' : Cluster}
    (hput' : ∀ v, Act.put v ∈ acts' → refs v = []) (h0' : isW' 0 = false)
    (hrun' : (Cluster.init m').run W isW' acts' = some c') (hcalls : callsOf 0 acts = callsOf 0 acts')
    {ids : List Nat} {vs vs' : List Val} (h1 : (ids, GetResult.values vs) ∈ c.root.results)
    (h2 : (ids, GetResult.values vs') ∈ c'.root.results) : vs = vs' := by
  have a := (C32_results_sequential hcode hput h0 hrun).1 ids vs h1
  have b := (C32_results_sequential hcode hput' h0' hrun').1 ids vs' h2
  rw [hcalls] at a
  rw [a] at b
  exact (List.map_inj_right (fun _ _ h => Option.some.inj h)).1 b

/-- Adds one to its argument; adds its two arguments. -/
def exWorld : World where
  call
    | 0, [.data a] => .ret (.data (a + 1))
    | 1, [.data a, .data b] => .ret (.data (a + b))
    | 2, [] => .raise 9
    | 3, _ => .ret (.list [.data 1])
    | _, _ => .raise 5
  method _ s _ := (s, .ret s)
  isAsync _ := false

/-- A task in worker 2, a task in worker 3 that needs its result, and a `get`, with the second task received first. -/
def exActs : List Act :=
  [.put (.code 0), .put (.code 1), .submit 0 [.data 4] 1 2, .submit 1 [.ref 2, .data 7] 1 3, .get [3, 2],
   .deliver 0 3, .deliver 0 3, .deliver 0 3, .deliver 0 3, .deliver 0 2, .deliver 3 2, .deliver 0 2, .deliver 0 2,
   .deliver 2 3, .reply 2, .reply 3]

example : ((Cluster.init 1).run exWorld (fun r => r == 2 || r == 3) exActs).map (·.root.results) =
    some [([3, 2], .values [.data 12, .data 5])] := by decide +kernel

example : [3, 2].map (meaning exWorld (callsOf 0 exActs)) = [some (.data 12), some (.data 5)] := by decide +kernel
end C32

/-! ## C33 Each submitted task runs at most once and only with resolved arguments -/

section C33
variable {W : World} {isW : Nat → Bool} {m : Nat} {acts : List Act} {c : Cluster}

/-- The executions logged by all workers belong to different submissions, each to the worker chosen at submission, and
were made with the values of the references. -/
theorem C33_once_with_values
    (hcode : ∀ f args v, refsList args = [] → W.call f args = .ret v → refs v = [])
    (hput : ∀ v, Act.put v ∈ acts → refs v = []) (h0 : isW 0 = false)
    (hrun : (Cluster.init m).run W isW acts = some c) :
    (∀ d, isW d = true → ((c.worker d).log.map (·.tag)).Nodup) ∧
    (∀ d d', isW d = true → isW d' = true → d ≠ d' → ∀ r ∈ (c.worker d).log, ∀ r' ∈ (c.worker d').log, r.tag ≠ r'.tag) ∧
    ∀ d, isW d = true → ∀ r ∈ (c.worker d).log, ∃ fn args outs,
      (submits (callsOf 0 acts))[r.tag]? = some (fn, args, outs) ∧ r.task = .fn fn ∧ r.outs = outs ∧
      r.args = substList (meaning W (callsOf 0 acts)) args ∧ refsList r.args = [] := by
  obtain ⟨subs, h⟩ := run_inv hcode hput h0 hrun
  refine ⟨fun d hd => h.nodupTags hd, ?_, ?_⟩
  · intro d d' hd hd' hne r hr r' hr' ht
    obtain ⟨s, a1, a2, -⟩ := (h.worker d hd).log r hr
    obtain ⟨s', b1, b2, -⟩ := (h.worker d' hd').log r' hr'
    rw [ht, b1, Option.some.injEq] at a1
    subst a1
    exact hne (a2.symm.trans b2)
  · intro d hd r hr
    obtain ⟨s, a1, a2, a3, a4, a5, a6, -⟩ := (h.worker d hd).log r hr
    refine ⟨s.fn, s.args, s.outs, ?_, a3, a4, a5, ?_⟩
    · rw [h.submits, List.getElem?_map]
      simp only [ctx] at a1
      rw [a1]; rfl
    · rw [a5]
      rw [List.eq_nil_iff_forall_not_mem]
      intro i hi
      rw [refsList_subst _ h.ok.closed] at hi
      exact a6 i hi.1 hi.2

example : ((Cluster.init 1).run exWorld (fun r => r == 2 || r == 3) exActs).map (fun c => (c.worker 3).log) =
    some [⟨1, .fn 1, [.data 5, .data 7], [3]⟩] := by decide +kernel
end C33

/-! ## C34 get of a list returns the values in order -/

/-- A `get` of references that all have a value is never stuck. -/
def C34_full : Prop := ∀ (W : World) (isW : Nat → Bool) (m : Nat) (acts : List Act) (c : Cluster) (wt : Waiting),
  (∀ f args v, refsList args = [] → W.call f args = .ret v → refs v = []) → (∀ v, Act.put v ∈ acts → refs v = []) →
  isW 0 = false → (Cluster.init m).run W isW acts = some c → c.root.waiting = some wt →
  (∀ i ∈ wt.ids, meaning W (callsOf 0 acts) i ≠ none) → ∃ a, c.step W isW a ≠ none

/-- The program `get([x, x])` with `x` computed by worker 2. -/
def exTwice : List Act :=
  [.put (.code 0), .submit 0 [.data 4] 1 2, .get [1, 1], .deliver 0 2, .deliver 0 2, .deliver 0 2, .deliver 0 2, .reply 2]

theorem exWorld_plain : ∀ f args v, refsList args = [] → exWorld.call f args = .ret v → refs v = [] := by
  intro f args v _ h
  simp only [exWorld] at h
  split at h <;> simp only [Ret.ret.injEq, reduceCtorEq] at h <;> subst h <;> rfl

/-- The data is requested twice but sent once, so the second reply never comes. -/
theorem C34_violated : ¬ C34_full := by
  intro h
  obtain ⟨c, hrun, hc⟩ := Option.map_eq_some_iff.1 (show ((Cluster.init 1).run exWorld (· == 2) exTwice).map
      (fun c => (c.root.waiting, [c.chan 0 0, c.chan 0 2, c.chan 2 0, c.chan 2 2], (c.worker 2).running)) =
      some (some ⟨[1, 1], [1, 1], 1, none⟩, [[], [], [], []], []) by decide +kernel)
  simp only [Prod.mk.injEq, List.cons.injEq, and_true] at hc
  obtain ⟨hw, hin, hco⟩ := hc
  obtain ⟨a, ha⟩ := h exWorld (· == 2) 1 exTwice c _ exWorld_plain (by simp [exTwice, refs]) rfl hrun hw (by
    intro i hi
    simp only [List.mem_cons, List.not_mem_nil, or_false, or_self] at hi
    subst hi
    have : meaning exWorld (callsOf 0 exTwice) 1 = some (.data 5) := by decide +kernel
    rw [this]; simp)
  refine ha (stuck hrun hw ?_ ?_ a)
  · intro s d hs hd
    simp only [beq_iff_eq] at hs hd
    rcases hs with rfl | rfl <;> rcases hd with rfl | rfl
    · exact hin.1
    · exact hin.2.1
    · exact hin.2.2.1
    · exact hin.2.2.2
  · intro d hd
    simp only [beq_iff_eq] at hd
    subst hd
    exact hco

/-- What holds: calls of `get` finish one after the other in the order in which they were made (all but possibly the
last), and a call that returns gives the value of the i-th reference at position i, with or without repetitions.
Termination for lists without repetitions is `C81`. -/
theorem C34_order_partial {W : World} {isW : Nat → Bool} {m : Nat} {acts : List Act} {c : Cluster}
    (hcode : ∀ f args v, refsList args = [] → W.call f args = .ret v → refs v = [])
    (hput : ∀ v, Act.put v ∈ acts → refs v = []) (h0 : isW 0 = false)
    (hrun : (Cluster.init m).run W isW acts = some c) :
    (∃ last : Option (List Nat), getsOf acts = c.root.results.map (·.1) ++ last.toList ∧
      (last = none ↔ c.root.waiting = none)) ∧
    ∀ ids vs, (ids, GetResult.values vs) ∈ c.root.results → vs.length = ids.length ∧
      ∀ (k i : Nat), ids[k]? = some i → ∃ v : Val, vs[k]? = some v ∧ meaning W (callsOf 0 acts) i = some v := by
  constructor
  · refine ⟨c.root.waiting.map (·.ids), ?_, by simp⟩
    have := gets_run acts hrun
    rw [started, Cluster.init] at this
    simpa [started] using this.symm
  · intro ids vs hp
    have := (C32_results_sequential hcode hput h0 hrun).1 ids vs hp
    constructor
    · have := congrArg List.length this
      simpa using this.symm
    · intro k i hk
      have := congrArg (fun l => l[k]?) this
      simp only [List.getElem?_map, hk, Option.map_some] at this
      cases hv : vs[k]? with
      | none => rw [hv] at this; simp at this
      | some v => rw [hv] at this; exact ⟨v, rfl, by simpa using this⟩

example : ((Cluster.init 1).run exWorld (· == 2)
    [.put (.data 3), .put (.data 4), .get [1, 0, 1]]).map (·.root.results) =
    some [([1, 0, 1], .values [.data 4, .data 3, .data 4])] := by decide +kernel

private theorem stuck_step {W : World} {isW : Nat → Bool} {m : Nat} {c c' : Cluster} {calls : List Spec.Call} {subs : List Sub} {ids : List Nat}
    (h : Inv W isW m c calls subs) {a : Act}
    (hp : ∃ wt, c.root.waiting = some wt ∧ wt.ids = ids ∧ ¬ wt.remote.Nodup) (hs : c.step W isW a = some (.ok c')) :
    ∃ wt, c'.root.waiting = some wt ∧ wt.ids = ids ∧ ¬ wt.remote.Nodup := by
  obtain ⟨wt, hw, hi, hn⟩ := hp
  cases a with
  | put v => simp [Cluster.step, hw] at hs
  | submit fn args n dest => simp [Cluster.step, hw] at hs
  | get l => simp [Cluster.step, hw] at hs
  | reply src =>
    simp only [Cluster.step, hw] at hs
    split at hs
    · rename_i wt' id v t hwt hc
      cases hwt
      split at hs
      · rename_i hid
        simp only [Option.some.injEq, Except.ok.injEq] at hs
        subst hs
        have hmem : Msg.data id v ∈ c.chan src 0 := by rw [hc]; simp
        obtain ⟨-, -, hown⟩ := h.chan src 0 _ hmem
        have hsrc := (h.own id src hown).2.1
        obtain ⟨-, hnone⟩ := h.dataS src hsrc id (mem_dataIds.2 ⟨v, hmem⟩)
        obtain ⟨got, g1, g2, g3, g4, g5, -⟩ := h.wait wt hw
        have hnew : (id :: got).Nodup := List.nodup_cons.2 ⟨fun hcon => g5 id hcon hnone, g1⟩
        have hsub : (id :: got).Subperm wt.remote := List.subperm_of_subset hnew (by
          intro i hi
          rw [List.mem_cons] at hi
          rcases hi with rfl | hi
          · exact hid
          · exact g2 i hi)
        by_cases hm : wt.missing ≤ 1
        · refine absurd ?_ hn
          have hlen : wt.remote.length ≤ (id :: got).length := by simp only [List.length_cons]; omega
          exact (hsub.perm_of_length_le hlen).nodup_iff.1 hnew
        · simp only [hm, if_false]
          exact ⟨_, rfl, hi, hn⟩
      · simp at hs
    · simp at hs
  | deliver src dst =>
    simp only [Cluster.step] at hs
    split at hs
    · split at hs
      · simp at hs
      · split at hs
        · simp at hs
        · simp only [Option.some.injEq, Except.ok.injEq] at hs
          subst hs
          exact ⟨wt, hw, hi, hn⟩
    · simp at hs
  | complete w i =>
    simp only [Cluster.step] at hs
    split at hs
    · simp only [Option.some.injEq, Except.ok.injEq] at hs
      subst hs
      exact ⟨wt, hw, hi, hn⟩
    · simp at hs

private theorem stuck_run {W : World} {isW : Nat → Bool} {m : Nat} (hW : W.Plain) (h0 : isW 0 = false) {ids : List Nat} :
    ∀ (acts : List Act) {c c' : Cluster} {calls : List Spec.Call} {subs : List Sub}, Inv W isW m c calls subs → (∀ a ∈ acts, PlainAct a) →
    (∃ wt, c.root.waiting = some wt ∧ wt.ids = ids ∧ ¬ wt.remote.Nodup) → c.run W isW acts = some c' →
    ∃ wt, c'.root.waiting = some wt ∧ wt.ids = ids ∧ ¬ wt.remote.Nodup
  | [], c, c', calls, subs, _, _, hp, hr => by
    simp only [Cluster.run, Option.some.injEq] at hr
    subst hr
    exact hp
  | a :: as, c, c', calls, subs, h, ha, hp, hr => by
    simp only [Cluster.run] at hr
    split at hr
    · rename_i c1 hs
      obtain ⟨l1, h1, -⟩ := inv_step hW h0 h (ha a (by simp)) hs
      exact stuck_run hW h0 as h1 (fun b hb => ha b (List.mem_cons_of_mem _ hb)) (stuck_step h hp hs) hr
    · simp at hr

/-- Exactly how it fails: a `get` of a list that mentions a reference twice whose value the main process does not have never returns, whatever
the workers do. (Repetitions of references whose value the main process has do no harm.) -/
theorem C34_repeated_partial {W : World} {isW : Nat → Bool} {m : Nat} {pre post : List Act} {c0 c : Cluster} {ids : List Nat}
    (hcode : ∀ f args v, refsList args = [] → W.call f args = .ret v → refs v = [])
    (hput : ∀ v, Act.put v ∈ pre ++ .get ids :: post → refs v = []) (h0 : isW 0 = false)
    (hpre : (Cluster.init m).run W isW pre = some c0) (hrun : c0.run W isW (.get ids :: post) = some c)
    (i : Nat) (hi : c0.root.store i = none) (htwo : 2 ≤ ids.count i) :
    ∃ wt, c.root.waiting = some wt ∧ wt.ids = ids := by
  have hplain : ∀ a ∈ pre ++ .get ids :: post, PlainAct a := by
    intro a ha
    cases a with
    | put v => exact hput v ha
    | _ => trivial
  obtain ⟨l, hinv⟩ := inv_run hcode h0 pre (inv_init W isW m) (fun a ha => hplain a (List.mem_append_left _ ha)) hpre
  have hrem : (ids.filter fun i => (c0.root.store i).isNone).count i = ids.count i := by
    rw [List.count_filter]; simp [hi]
  have hnd : ¬ (ids.filter fun i => (c0.root.store i).isNone).Nodup := by
    intro hnd
    have := List.nodup_iff_count.1 hnd i
    omega
  simp only [Cluster.run] at hrun
  split at hrun
  · rename_i c1 hs
    obtain ⟨l1, h1, -⟩ := inv_step hcode h0 hinv (a := .get ids) trivial hs
    have hwait : ∃ wt, c1.root.waiting = some wt ∧ wt.ids = ids ∧ ¬ wt.remote.Nodup := by
      simp only [Cluster.step] at hs
      split at hs
      · simp at hs
      · split at hs
        · rename_i he
          rw [List.isEmpty_iff] at he
          rw [he] at hnd
          simp at hnd
        · split at hs
          · simp only [Option.some.injEq, Except.ok.injEq] at hs
            subst hs
            exact ⟨_, rfl, rfl, hnd⟩
          · simp at hs
    obtain ⟨wt, w1, w2, -⟩ := stuck_run hcode h0 post h1
      (fun a ha => hplain a (List.mem_append_right _ (List.mem_cons_of_mem _ ha))) hwait hrun
    exact ⟨wt, w1, w2⟩
  · simp at hrun

/-- A local and a remote reference, the remote one twice: both requests are made, one reply comes. -/
example : ((Cluster.init 1).run exWorld (· == 2) [.put (.code 0), .put (.data 4), .submit 0 [.ref 1] 1 2, .get [1, 2, 2, 1], .deliver 0 2,
    .deliver 0 2, .deliver 0 2, .deliver 0 2, .deliver 0 2, .reply 2]).map (fun c => (c.root.waiting, c.chan 2 0, c.chan 0 2)) =
    some (some ⟨[1, 2, 2, 1], [2, 2], 1, none⟩, [], []) := by decide +kernel

/-! ## C35 get of a failed task raises every time -/

/-- Every `get` of a list containing a reference of a failed task raises. -/
def C35_full : Prop := ∀ (W : World) (isW : Nat → Bool) (m : Nat) (acts : List Act) (c : Cluster),
  (∀ f args v, refsList args = [] → W.call f args = .ret v → refs v = []) → (∀ v, Act.put v ∈ acts → refs v = []) →
  isW 0 = false → (Cluster.init m).run W isW acts = some c →
  ∀ ids res, (ids, res) ∈ c.root.results → ∀ fn args outs, (fn, args, outs) ∈ submits (callsOf 0 acts) →
    ∀ e, taskResult W (meaning W (callsOf 0 acts)) fn args = some (.raise e) → ∀ i ∈ outs, i ∈ ids →
    ∃ e', res = .raised e'

/-- A failing task and two `get` calls. -/
def exFail : List Act :=
  [.put (.code 2), .submit 0 [] 1 2, .get [1], .deliver 0 2, .deliver 0 2, .deliver 0 2, .reply 2, .get [1]]

/-- The second `get` finds the exception object in the local store and returns it as a value. -/
theorem C35_violated : ¬ C35_full := by
  intro h
  obtain ⟨c, hrun, hres⟩ := Option.map_eq_some_iff.1 (show ((Cluster.init 1).run exWorld (· == 2) exFail).map
      (·.root.results) = some [([1], .raised 9), ([1], .values [.exc 9])] by decide +kernel)
  obtain ⟨e', he⟩ := h exWorld (· == 2) 1 exFail c exWorld_plain (by simp [exFail, refs]) rfl hrun [1] (.values [.exc 9])
    (by rw [hres]; simp) 0 [] [1] (by decide +kernel) 9 (by decide +kernel) 1 (by simp) (by simp)
  simp at he

/-- What holds: the first `get` that contains the reference raises, and the error it raises is that of a failed reference
in its list. -/
theorem C35_first_partial {W : World} {isW : Nat → Bool} {m : Nat} {acts : List Act} {c : Cluster}
    (hcode : ∀ f args v, refsList args = [] → W.call f args = .ret v → refs v = [])
    (hput : ∀ v, Act.put v ∈ acts → refs v = []) (h0 : isW 0 = false)
    (hrun : (Cluster.init m).run W isW acts = some c)
    {pre post : List (List Nat × GetResult)} {ids : List Nat} {res : GetResult}
    (hres : c.root.results = pre ++ (ids, res) :: post) {fn : Nat} {args : List Val} {outs : List Nat}
    (hs : (fn, args, outs) ∈ submits (callsOf 0 acts)) {e : Nat}
    (hf : taskResult W (meaning W (callsOf 0 acts)) fn args = some (.raise e)) {i : Nat} (hi : i ∈ outs) (hin : i ∈ ids)
    (hfirst : ∀ p ∈ pre, i ∉ p.1) :
    ∃ e', res = .raised e' ∧ (∃ j ∈ ids, meaning W (callsOf 0 acts) j = some (.exc e')) ∧
      ((∀ j ∈ ids, ∀ k, meaning W (callsOf 0 acts) j = some (.exc k) → k = e) → e' = e) := by
  obtain ⟨subs, h⟩ := run_inv hcode hput h0 hrun
  obtain ⟨s, hsub, rfl, rfl, rfl⟩ := h.sub_of hs
  have hD : meaning W (callsOf 0 acts) i = some (.exc e) :=
    h.ok.value s hsub _ hf (i, .exc e) (by simp only [outputValues, List.mem_map]; exact ⟨i, hi, rfl⟩)
  have ho : c.root.owner i ≠ none := by
    have := h.ok.own s hsub i hi
    simp only [ctx] at this
    rw [this]; simp
  have hr := h.results pre ids res post hres
  cases res with
  | values vs => exact absurd hD (hr.2 i hin ho hfirst e)
  | raised e' =>
    obtain ⟨j, hj, hD'⟩ := hr
    exact ⟨e', rfl, ⟨j, hj, hD'⟩, fun hu => hu j hj e' hD'⟩

example : ((Cluster.init 1).run exWorld (· == 2) exFail).map (·.root.results) =
    some [([1], .raised 9), ([1], .values [.exc 9])] := by decide +kernel

/-! ## C36 A failed argument fails the dependent task without running it -/

section C36
variable {W : World} {isW : Nat → Bool} {m : Nat} {acts : List Act} {c : Cluster}

/-- The run does not depend on what user functions do if called with an error as a direct argument: they are never called
so. -/
theorem C36_not_called (W W' : World) (hasync : W.isAsync = W'.isAsync)
    (hcall : ∀ f args, (∀ e, Val.exc e ∉ args) → W.call f args = W'.call f args)
    (hmeth : ∀ f s args, (∀ e, Val.exc e ∉ args) → W.method f s args = W'.method f s args)
    (isW : Nat → Bool) (m : Nat) (acts : List Act) :
    (Cluster.init m).run W isW acts = (Cluster.init m).run W' isW acts := by
  have hff : ∀ args : List Val, firstFailure args = none → ∀ e, Val.exc e ∉ args := by
    intro args h e he
    simp only [firstFailure, List.findSome?_eq_none_iff] at h
    have := h _ he
    simp at this
  exact run_agree ⟨fun f args h => hcall f args (hff args h), fun f s args h => hmeth f s args (hff args h), hasync⟩ isW acts _

/-- The outputs of a task one of whose direct arguments is a failed reference carry an error, namely the error of the
first failed direct argument. -/
theorem C36_same_error
    (hcode : ∀ f args v, refsList args = [] → W.call f args = .ret v → refs v = [])
    (hput : ∀ v, Act.put v ∈ acts → refs v = []) (h0 : isW 0 = false)
    (hrun : (Cluster.init m).run W isW acts = some c)
    {fn : Nat} {before after : List Val} {outs : List Nat} {i e : Nat}
    (hs : (fn, before ++ .ref i :: after, outs) ∈ submits (callsOf 0 acts))
    (hi : meaning W (callsOf 0 acts) i = some (.exc e))
    (hb : ∀ v ∈ before, ∀ k, subst (meaning W (callsOf 0 acts)) v ≠ .exc k)
    (hall : ∀ j ∈ refsList (before ++ .ref i :: after), meaning W (callsOf 0 acts) j ≠ none)
    (hfn : meaning W (callsOf 0 acts) fn ≠ none) :
    ∀ o ∈ outs, meaning W (callsOf 0 acts) o = some (.exc e) := by
  obtain ⟨subs, h⟩ := run_inv hcode hput h0 hrun
  obtain ⟨s, hsub, rfl, h2, rfl⟩ := h.sub_of hs
  intro o ho
  have hmap : ∀ l : List Val, substList (meaning W (callsOf 0 acts)) l = l.map (subst (meaning W (callsOf 0 acts))) := by
    intro l
    induction l with
    | nil => rfl
    | cons a t ih => simp [substList, ih]
  have hres : taskResult W (meaning W (callsOf 0 acts)) s.fn s.args = some (.raise e) := by
    rw [taskResult, h2, if_pos]
    · rw [hmap]
      have : firstFailure ((before ++ .ref i :: after).map (subst (meaning W (callsOf 0 acts)))) = some e := by
        rw [List.map_append, List.map_cons]
        simp only [subst, hi, Option.getD_some]
        refine firstFailure_append ?_
        intro v hv k
        rw [List.mem_map] at hv
        obtain ⟨u, hu, rfl⟩ := hv
        exact hb u hu k
      rw [this]
    · exact ⟨fun j hj => Option.isSome_iff_ne_none.2 (hall j hj), Option.isSome_iff_ne_none.2 hfn⟩
  exact h.ok.value s hsub _ hres (o, .exc e) (by simp only [outputValues, List.mem_map]; exact ⟨o, ho, rfl⟩)

/-- `o` comes from `i` through tasks whose only failed direct argument is the previous reference. -/
inductive Chain (W : World) (calls : List Call) (i : Nat) : Nat → Prop
  | start : Chain W calls i i
  | next {j o : Nat} {fn : Nat} {before after : List Val} {outs : List Nat} (h : Chain W calls i j)
      (hs : (fn, before ++ .ref j :: after, outs) ∈ Spec.submits calls) (ho : o ∈ outs)
      (hb : ∀ v ∈ before, ∀ k, subst (meaning W calls) v ≠ .exc k)
      (hall : ∀ k ∈ refsList (before ++ .ref j :: after), meaning W calls k ≠ none)
      (hfn : meaning W calls fn ≠ none) : Chain W calls i o

/-- The error is carried along every chain of dependent tasks. -/
theorem C36_transitive
    (hcode : ∀ f args v, refsList args = [] → W.call f args = .ret v → refs v = [])
    (hput : ∀ v, Act.put v ∈ acts → refs v = []) (h0 : isW 0 = false)
    (hrun : (Cluster.init m).run W isW acts = some c) {i e o : Nat}
    (hi : meaning W (callsOf 0 acts) i = some (.exc e)) (hc : Chain W (callsOf 0 acts) i o) :
    meaning W (callsOf 0 acts) o = some (.exc e) := by
  induction hc with
  | start => exact hi
  | next _ hs ho hb hall hfn ih => exact C36_same_error hcode hput h0 hrun hs ih hb hall hfn _ ho

/-- A failing task, a task using its result and a task using the result of that. -/
def exChain : List Act :=
  [.put (.code 2), .put (.code 0), .submit 0 [] 1 2, .submit 1 [.ref 2] 1 2, .submit 1 [.ref 3] 1 2, .get [4],
   .deliver 0 2, .deliver 0 2, .deliver 0 2, .deliver 0 2, .deliver 0 2, .deliver 0 2, .deliver 0 2, .deliver 0 2, .reply 2]

example : ((Cluster.init 1).run exWorld (· == 2) exChain).map (·.root.results) = some [([4], .raised 9)] := by decide +kernel
end C36

/-! ## C41 num_returns determines the shape of the result -/

section C41
variable {W : World} {isW : Nat → Bool} {m : Nat} {acts : List Act} {c : Cluster}

/-- The result of a submission in any reachable state: nothing, one reference, or a list of `n` references, which are
different and have not been used before. -/
theorem C41_shape
    (hcode : ∀ f args v, refsList args = [] → W.call f args = .ret v → refs v = [])
    (hput : ∀ v, Act.put v ∈ acts → refs v = []) (h0 : isW 0 = false)
    (hrun : (Cluster.init m).run W isW acts = some c) (fn : Nat) (args : List Val) (n dest : Nat) :
    (n = 0 → c.root.submitResult dest n = .nothing) ∧
    (n = 1 → ∃ i, c.root.submitResult dest n = .one i) ∧
    (2 ≤ n → ∃ ids, c.root.submitResult dest n = .many ids ∧ ids.length = n ∧ ids.Nodup) ∧
    ∀ i ∈ (c.root.submitResult dest n).ids, meaning W (callsOf 0 acts) i = none ∧
      (∀ q ∈ submits (callsOf 0 acts), i ∉ q.2.2) ∧
      ∃ outs, submits (callsOf 0 (acts ++ [.submit fn args n dest])) =
        submits (callsOf 0 acts) ++ [(fn, args, outs)] ∧ outs = (c.root.submitResult dest n).ids := by
  obtain ⟨subs, h⟩ := run_inv hcode hput h0 hrun
  have hids : (c.root.submitResult dest n).ids = (List.range n).map (c.root.nextId + ·) := by
    rcases n with _ | _ | n
    · rfl
    · rfl
    · rfl
  have hnext : ∀ (as : List Act) (k : Nat) (b : Act), callsOf k (as ++ [b]) = callsOf k as ++ callOf (as.foldl nextOf k) b := by
    intro as
    induction as with
    | nil => intro k b; simp [callsOf]
    | cons a as ih => intro k b; simp [callsOf, ih]
  have hn : c.root.nextId = acts.foldl nextOf 0 := by
    have : ∀ (as : List Act) (d e : Cluster), d.run W isW as = some e → (∀ v, Act.put v ∈ as → refs v = []) →
        (∃ calls subs, Inv W isW m d calls subs) → e.root.nextId = as.foldl nextOf d.root.nextId := by
      intro as
      induction as with
      | nil => intro d e hr _ _; simp only [Cluster.run, Option.some.injEq] at hr; subst hr; rfl
      | cons a as ih =>
        intro d e hr hp ⟨cs, ss, hi⟩
        simp only [Cluster.run] at hr
        split at hr
        · rename_i d1 hs
          obtain ⟨l, h1, h2⟩ := inv_step hcode h0 hi (a := a) (by cases a <;> first | exact hp _ (by simp) | trivial) hs
          rw [ih d1 e hr (fun v hv => hp v (List.mem_cons_of_mem _ hv)) ⟨_, _, h1⟩, h2]
          rfl
        · simp at hr
    exact this acts _ c hrun hput ⟨_, _, inv_init W isW m⟩
  refine ⟨?_, ?_, ?_, ?_⟩
  · rintro rfl; rfl
  · rintro rfl; exact ⟨_, rfl⟩
  · intro h2
    obtain ⟨k, rfl⟩ : ∃ k, n = k + 2 := ⟨n - 2, by omega⟩
    refine ⟨_, rfl, by simp [Root.genOuts], ?_⟩
    exact List.Nodup.map (fun a b h => by simpa using h) List.nodup_range
  · intro i hi
    rw [hids, List.mem_map] at hi
    obtain ⟨j, -, rfl⟩ := hi
    refine ⟨?_, ?_, _, ?_, rfl⟩
    · cases hm : meaning W (callsOf 0 acts) (c.root.nextId + j) with
      | none => rfl
      | some v =>
        have := h.dom (c.root.nextId + j) (by rw [hm]; simp)
        omega
    · intro q hq hin
      obtain ⟨s, hs, h1, h2, h3⟩ := h.sub_of (fn := q.1) (args := q.2.1) (outs := q.2.2) hq
      have ho := h.ok.own s hs (c.root.nextId + j) (by rw [h3]; exact hin)
      have := (h.own _ _ ho).1
      omega
    · rw [hnext, ← hn, hids]
      simp [submits, callOf]

/-- The i-th reference carries the i-th value: whatever position of a `get` the i-th output is at, the value found there is
the i-th element of the list returned by the function. -/
theorem C41_values
    (hcode : ∀ f args v, refsList args = [] → W.call f args = .ret v → refs v = [])
    (hput : ∀ v, Act.put v ∈ acts → refs v = []) (h0 : isW 0 = false)
    (hrun : (Cluster.init m).run W isW acts = some c) {fn : Nat} {args : List Val} {outs : List Nat}
    (hs : (fn, args, outs) ∈ submits (callsOf 0 acts)) (h2 : 2 ≤ outs.length) {vs : List Val}
    (hr : taskResult W (meaning W (callsOf 0 acts)) fn args = some (.ret (.list vs))) (hlen : outs.length ≤ vs.length)
    {ids : List Nat} {us : List Val} (hres : (ids, GetResult.values us) ∈ c.root.results) {j k o : Nat}
    (hj : ids[j]? = some o) (hk : outs[k]? = some o) : us[j]? = vs[k]? ∧ vs[k]? ≠ none := by
  obtain ⟨subs, h⟩ := run_inv hcode hput h0 hrun
  obtain ⟨s, hsub, rfl, rfl, rfl⟩ := h.sub_of hs
  obtain ⟨v, hv, hm⟩ := ((C34_order_partial hcode hput h0 hrun).2 ids us hres).2 j o hj
  obtain ⟨hk1, hk2⟩ := List.getElem?_eq_some_iff.1 hk
  have hvk : k < vs.length := by omega
  have := h.ok.value s hsub _ hr (o, vs[k]) (by
    match ho : s.outs, h2 with
    | a :: b :: t, _ =>
      simp only [outputValues]
      rw [← ho, List.mem_iff_getElem?]
      refine ⟨k, ?_⟩
      rw [List.getElem?_zip_eq_some]
      exact ⟨hk, List.getElem?_eq_getElem hvk⟩)
  simp only [ctx] at this
  rw [hm, Option.some.injEq] at this
  rw [hv, this, List.getElem?_eq_getElem hvk]
  simp

example : (Cluster.init 1).root.submitResult 2 3 = .many [0, 1, 2] := by decide +kernel
end C41

/-! ## C42 A task returning too few values reports it -/

/-- Waiting for an output that the function did not return is never stuck. -/
def C42_full : Prop := ∀ (W : World) (isW : Nat → Bool) (m : Nat) (acts : List Act) (c : Cluster) (wt : Waiting),
  (∀ f args v, refsList args = [] → W.call f args = .ret v → refs v = []) → (∀ v, Act.put v ∈ acts → refs v = []) →
  isW 0 = false → (Cluster.init m).run W isW acts = some c → c.root.waiting = some wt → wt.ids.Nodup →
  (∀ i ∈ wt.ids, ∃ fn args outs vs, (fn, args, outs) ∈ submits (callsOf 0 acts) ∧ i ∈ outs ∧
    taskResult W (meaning W (callsOf 0 acts)) fn args = some (.ret (.list vs)) ∧ vs.length < outs.length) →
  ∃ a, c.step W isW a ≠ none

/-- Two values are expected, the function returns a list with one. -/
def exShort : List Act :=
  [.put (.code 3), .submit 0 [] 2 2, .get [2], .deliver 0 2, .deliver 0 2, .deliver 0 2]

/-- The missing output is never stored and the request waits for ever. -/
theorem C42_violated : ¬ C42_full := by
  intro h
  obtain ⟨c, hrun, hc⟩ := Option.map_eq_some_iff.1 (show ((Cluster.init 1).run exWorld (· == 2) exShort).map
      (fun c => (c.root.waiting, [c.chan 0 0, c.chan 0 2, c.chan 2 0, c.chan 2 2], (c.worker 2).running)) =
      some (some ⟨[2], [2], 1, none⟩, [[], [], [], []], []) by decide +kernel)
  simp only [Prod.mk.injEq, List.cons.injEq, and_true] at hc
  obtain ⟨hw, hin, hco⟩ := hc
  obtain ⟨a, ha⟩ := h exWorld (· == 2) 1 exShort c _ exWorld_plain (by simp [exShort, refs]) rfl hrun hw
    (by simp) (by
      intro i hi
      simp only [List.mem_singleton] at hi
      subst hi
      exact ⟨0, [], [1, 2], [.data 1], by decide +kernel, by simp, by decide +kernel,
        by simp⟩)
  refine ha (stuck hrun hw ?_ ?_ a)
  · intro s d hs hd
    simp only [beq_iff_eq] at hs hd
    rcases hs with rfl | rfl <;> rcases hd with rfl | rfl
    · exact hin.1
    · exact hin.2.1
    · exact hin.2.2.1
    · exact hin.2.2.2
  · intro d hd
    simp only [beq_iff_eq] at hd
    subst hd
    exact hco

/-- What holds: a missing output never gets a value, so no `get` of it returns values; the outputs for which there is a
value have it. -/
theorem C42_no_wrong_value_partial {W : World} {isW : Nat → Bool} {m : Nat} {acts : List Act} {c : Cluster}
    (hcode : ∀ f args v, refsList args = [] → W.call f args = .ret v → refs v = [])
    (hput : ∀ v, Act.put v ∈ acts → refs v = []) (h0 : isW 0 = false)
    (hrun : (Cluster.init m).run W isW acts = some c) {fn : Nat} {args : List Val} {outs : List Nat}
    (hs : (fn, args, outs) ∈ submits (callsOf 0 acts)) (h2 : 2 ≤ outs.length) {vs : List Val}
    (hr : taskResult W (meaning W (callsOf 0 acts)) fn args = some (.ret (.list vs))) {k o : Nat}
    (hk : outs[k]? = some o) :
    meaning W (callsOf 0 acts) o = vs[k]? ∧
      (vs.length ≤ k → ∀ ids us, (ids, GetResult.values us) ∈ c.root.results → o ∉ ids) := by
  have hnd := (callsOf_created acts 0).1
  have hc := mem_submits.1 hs
  have hout : outputValues outs (.ret (.list vs)) = outs.zip vs := by
    match outs, h2 with
    | a :: b :: t, _ => rfl
  have hon : outs.Nodup := by
    obtain ⟨a, b, he⟩ := List.append_of_mem hc
    rw [he, createdAll_append, List.nodup_append] at hnd
    have := hnd.2.1
    simp only [createdAll, created, List.nodup_append] at this
    exact this.1
  have hm : meaning W (callsOf 0 acts) o = vs[k]? := by
    cases hv : vs[k]? with
    | some v =>
      obtain ⟨subs, h⟩ := run_inv hcode hput h0 hrun
      obtain ⟨s, hsub, rfl, rfl, rfl⟩ := h.sub_of hs
      refine h.ok.value s hsub _ hr (o, v) ?_
      rw [hout, List.mem_iff_getElem?]
      exact ⟨k, List.getElem?_zip_eq_some.2 ⟨hk, hv⟩⟩
    | none =>
      cases hx : meaning W (callsOf 0 acts) o with
      | none => rfl
      | some v =>
        obtain ⟨r, q1, q2⟩ := meaning_output W hnd hc (List.mem_of_getElem? hk) hx
        rw [hr, Option.some.injEq] at q1
        subst q1
        rw [hout, List.mem_iff_getElem?] at q2
        obtain ⟨k', hk'⟩ := q2
        obtain ⟨g1, g2⟩ := List.getElem?_zip_eq_some.1 hk'
        have : k = k' := by
          obtain ⟨p1, p2⟩ := List.getElem?_eq_some_iff.1 hk
          obtain ⟨p3, p4⟩ := List.getElem?_eq_some_iff.1 g1
          exact (hon.getElem_inj_iff).1 (p2.trans p4.symm)
        subst this
        rw [hv] at g2
        simp at g2
  refine ⟨hm, ?_⟩
  intro hle ids us hres ho
  obtain ⟨j, hj⟩ := List.mem_iff_getElem?.1 ho
  obtain ⟨v, -, hv⟩ := ((C34_order_partial hcode hput h0 hrun).2 ids us hres).2 j o hj
  rw [hm, List.getElem?_eq_none hle] at hv
  simp at hv

example : ((Cluster.init 1).run exWorld (· == 2)
    ([.put (.code 3), .submit 0 [] 2 2, .get [1], .deliver 0 2, .deliver 0 2, .deliver 0 2, .reply 2])).map (·.root.results) =
    some [([1], .values [.data 1])] := by decide +kernel

/-! ## C43 A failing fire-and-forget task does not harm its worker -/

/-- No failing task ends its worker. -/
def C43_full : Prop := ∀ (W : World) (isW : Nat → Bool) (m : Nat) (acts : List Act) (c : Cluster),
  (∀ f args v, refsList args = [] → W.call f args = .ret v → refs v = []) → (∀ v, Act.put v ∈ acts → refs v = []) →
  isW 0 = false → (Cluster.init m).run W isW acts = some c →
  ∀ s d, c.step W isW (.deliver s d) ≠ some (.error .putNone)

/-- The error a step ends with. -/
def crashOf : Option (Except Crash Cluster) → Option Crash
  | some (.error e) => some e
  | _ => none

theorem crashOf_eq {r : Option (Except Crash Cluster)} {e : Crash} (h : crashOf r = some e) : r = some (.error e) := by
  match r, h with
  | some (.error e'), h => simp only [crashOf, Option.some.injEq] at h; rw [h]

/-- A task without outputs raises: storing the exception under `None` raises again and ends the worker. -/
theorem C43_violated : ¬ C43_full := by
  intro h
  obtain ⟨c, hrun, hs⟩ := Option.map_eq_some_iff.1 (show ((Cluster.init 1).run exWorld (· == 2)
      [.put (.code 2), .submit 0 [] 0 2, .deliver 0 2]).map (fun c => crashOf (c.step exWorld (· == 2) (.deliver 0 2))) =
      some (some .putNone) by decide +kernel)
  exact h exWorld (· == 2) 1 _ c exWorld_plain (by simp [refs]) rfl hrun 0 2 (crashOf_eq hs)

/-- What holds: a worker is ended only by a failing task without outputs or by a task with several outputs that returns
something that is not a list. In particular no failing task with outputs ends its worker. -/
theorem C43_crash_partial {W : World} {isW : Nat → Bool} {m : Nat} {acts : List Act} {c : Cluster}
    (hcode : ∀ f args v, refsList args = [] → W.call f args = .ret v → refs v = [])
    (hput : ∀ v, Act.put v ∈ acts → refs v = []) (h0 : isW 0 = false)
    (hrun : (Cluster.init m).run W isW acts = some c) {a : Act} {e : Crash}
    (hstep : c.step W isW a = some (.error e)) :
    (e = .putNone ∧ ∃ fn args k, (fn, args, []) ∈ submits (callsOf 0 acts) ∧
      taskResult W (meaning W (callsOf 0 acts)) fn args = some (.raise k)) ∨
    (e = .notIterable ∧ ∃ fn args outs v, (fn, args, outs) ∈ submits (callsOf 0 acts) ∧ 2 ≤ outs.length ∧
      taskResult W (meaning W (callsOf 0 acts)) fn args = some (.ret v) ∧ ∀ vs, v ≠ .list vs) := by
  obtain ⟨subs, h⟩ := run_inv hcode hput h0 hrun
  cases a with
  | deliver s d =>
    rcases h.deliver_error hstep with ⟨rfl, s, hs, ho, k, hk⟩ | ⟨rfl, s, hs, ho, v, hv, hn⟩
    · refine Or.inl ⟨rfl, s.fn, s.args, k, ?_, hk⟩
      rw [← ho]; exact h.mem_submits hs
    · exact Or.inr ⟨rfl, s.fn, s.args, s.outs, v, h.mem_submits hs, ho, hv, hn⟩
  | put v => simp only [Cluster.step] at hstep; split at hstep <;> simp at hstep
  | submit fn args n d =>
    simp only [Cluster.step] at hstep
    split at hstep
    · simp at hstep
    · split at hstep
      · simp at hstep
      · split at hstep <;> simp at hstep
  | get ids =>
    simp only [Cluster.step] at hstep
    split at hstep
    · simp at hstep
    · split at hstep
      · simp at hstep
      · split at hstep <;> simp at hstep
  | reply src =>
    simp only [Cluster.step] at hstep
    split at hstep
    · split at hstep <;> simp at hstep
    · simp at hstep
  | complete w i =>
    simp only [Cluster.step] at hstep
    split at hstep <;> simp at hstep

example : ((Cluster.init 1).run exWorld (· == 2)
    [.put (.code 2), .submit 0 [] 1 2, .put (.code 0), .submit 2 [.data 1] 1 2, .get [3], .deliver 0 2, .deliver 0 2,
     .deliver 0 2, .deliver 0 2, .deliver 0 2, .reply 2]).map (·.root.results) = some [([3], .values [.data 2])] := by decide +kernel

/-! ## C49 A task's references are known to its worker before the task arrives -/

section C49
variable {W : World} {isW : Nat → Bool} {m : Nat} {acts : List Act} {c : Cluster}

/-- When a task is the next message for a worker, its function is stored there and every reference in its arguments, at
any depth, is stored or its owner is known. -/
theorem C49_known_before_task
    (hcode : ∀ f args v, refsList args = [] → W.call f args = .ret v → refs v = [])
    (hput : ∀ v, Act.put v ∈ acts → refs v = []) (h0 : isW 0 = false)
    (hrun : (Cluster.init m).run W isW acts = some c) {s d : Nat} (hd : isW d = true) {r : Request} {t : List Msg}
    (hc : c.chan s d = .execute r :: t) :
    (∀ i ∈ refsList r.args, (c.worker d).store i ≠ none ∨ (c.worker d).owner i ≠ none) ∧
    ∀ f, r.task = .fn f → (c.worker d).store f ≠ none := by
  obtain ⟨subs, h⟩ := run_inv hcode hput h0 hrun
  have hm := h.chan s d (.execute r) (by rw [hc]; simp)
  obtain ⟨rfl, -⟩ := hm
  have hf := h.fifo d hd
  rw [hc] at hf
  exact hf.1

/-- No task fails because a reference, function or actor is missing. -/
theorem C49_never_missing
    (hcode : ∀ f args v, refsList args = [] → W.call f args = .ret v → refs v = [])
    (hput : ∀ v, Act.put v ∈ acts → refs v = []) (h0 : isW 0 = false)
    (hrun : (Cluster.init m).run W isW acts = some c) (a : Act) :
    c.step W isW a ≠ some (.error .missingId) ∧ c.step W isW a ≠ some (.error .missingTask) ∧
    c.step W isW a ≠ some (.error .noActor) := by
  refine ⟨?_, ?_, ?_⟩ <;> intro hs <;>
    rcases C43_crash_partial hcode hput h0 hrun hs with ⟨he, -⟩ | ⟨he, -⟩ <;> simp at he

/-- The data messages that an action of the main process adds to its channels. -/
def dataSent (c c' : Cluster) : Act → List (Nat × Nat)
  | .submit _ _ _ dest => ((c'.chan 0 dest).drop (c.chan 0 dest).length).filterMap fun
    | .putData id _ => some (id, dest)
    | _ => none
  | _ => []

/-- All data messages sent by the main process in a run. -/
def dataHistory (W : World) (isW : Nat → Bool) : Cluster → List Act → List (Nat × Nat)
  | _, [] => []
  | c, a :: as =>
    match c.step W isW a with
    | some (.ok c') => dataSent c c' a ++ dataHistory W isW c' as
    | _ => []

theorem dataSent_step {W : World} {isW : Nat → Bool} {c c' : Cluster} {a : Act} (hs : c.step W isW a = some (.ok c'))
    (hn : c.root.sent.Nodup) : c'.root.sent.Nodup ∧ c'.root.sent = (dataSent c c' a).reverse ++ c.root.sent := by
  cases a with
  | put v =>
    simp only [Cluster.step] at hs
    split at hs
    · simp at hs
    · simp only [Option.some.injEq, Except.ok.injEq] at hs
      subst hs
      exact ⟨hn, rfl⟩
  | submit fn args n dest =>
    simp only [Cluster.step] at hs
    split at hs
    · simp at hs
    · split at hs
      · simp at hs
      · rename_i r1 l1 p1
        split at hs
        · simp at hs
        · rename_i r2 l2 p2
          simp only [Option.some.injEq, Except.ok.injEq] at hs
          subst hs
          have hp := (pushRef_spec p1).trans (pushList_spec args p2)
          refine ⟨hp.nodup hn, ?_⟩
          simp only [Root.genOuts, hp.sent, dataSent]
          congr 2
          rw [sendAll_self, List.drop_left]
          have hmsg := hp.msgs
          rw [List.filter_append, List.map_append, List.filterMap_append]
          simp only [List.filter_cons, decide_true, if_true, List.filter_nil, List.map_cons, List.map_nil,
            List.filterMap_cons, List.filterMap_nil, List.append_nil]
          generalize l1 ++ l2 = l at hmsg ⊢
          induction l with
          | nil => rfl
          | cons p l ih =>
            have h1 := ih (fun q hq => hmsg q (List.mem_cons_of_mem _ hq))
            obtain ⟨e1, e2⟩ := hmsg p (by simp)
            obtain ⟨pd, pm⟩ := p
            simp only at e1 e2
            subst e1
            rcases e2 with ⟨i, v, rfl, -⟩ | ⟨i, o, rfl, -⟩
            · simp only [keys, List.filterMap_cons, List.filter_cons, decide_true, if_true, List.map_cons] at h1 ⊢
              rw [h1]
            · simp only [keys, List.filterMap_cons, List.filter_cons, decide_true, if_true, List.map_cons] at h1 ⊢
              rw [h1]
  | get ids =>
    simp only [Cluster.step] at hs
    split at hs
    · simp at hs
    · split at hs
      · simp only [Option.some.injEq, Except.ok.injEq] at hs
        subst hs
        exact ⟨hn, rfl⟩
      · split at hs
        · simp only [Option.some.injEq, Except.ok.injEq] at hs
          subst hs
          exact ⟨hn, rfl⟩
        · simp at hs
  | reply src =>
    simp only [Cluster.step] at hs
    split at hs
    · split at hs
      · simp only [Option.some.injEq, Except.ok.injEq] at hs
        subst hs
        simp only
        split <;> exact ⟨hn, rfl⟩
      · simp at hs
    · simp at hs
  | deliver src dst =>
    simp only [Cluster.step] at hs
    split at hs
    · split at hs
      · simp at hs
      · split at hs
        · simp at hs
        · simp only [Option.some.injEq, Except.ok.injEq] at hs
          subst hs
          exact ⟨hn, rfl⟩
    · simp at hs
  | complete w i =>
    simp only [Cluster.step] at hs
    split at hs
    · simp only [Option.some.injEq, Except.ok.injEq] at hs
      subst hs
      exact ⟨hn, rfl⟩
    · simp at hs

theorem dataHistory_nodup (W : World) (isW : Nat → Bool) : ∀ (acts : List Act) (c : Cluster), c.root.sent.Nodup →
    ((dataHistory W isW c acts).reverse ++ c.root.sent).Nodup
  | [], c, h => by simpa [dataHistory] using h
  | a :: as, c, h => by
    simp only [dataHistory]
    split
    · rename_i c' hs
      obtain ⟨h1, h2⟩ := dataSent_step hs h
      have := dataHistory_nodup W isW as c' h1
      rw [h2] at this
      simpa [List.append_assoc] using this
    · simpa using h

/-- The main process sends each datum to each worker at most once, over all its submissions. -/
theorem C49_sent_once (W : World) (isW : Nat → Bool) (m : Nat) (acts : List Act) :
    (dataHistory W isW (Cluster.init m) acts).Nodup := by
  have := dataHistory_nodup W isW acts (Cluster.init m) (by simp [Cluster.init])
  rw [List.nodup_append] at this
  exact (List.reverse_perm _).nodup_iff.1 this.1

example : dataHistory exWorld (fun r => r == 2 || r == 3) (Cluster.init 1)
    [.put (.code 0), .put (.data 3), .submit 0 [.list [.ref 1]] 1 2, .submit 0 [.ref 1] 1 2, .submit 0 [.ref 1] 1 3] =
    [(0, 2), (1, 2), (0, 3), (1, 3)] := by decide +kernel
end C49

end Verif.Props
