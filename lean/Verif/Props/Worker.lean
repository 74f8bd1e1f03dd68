import Verif.Lemmas.WorkerActor
import Verif.Lemmas.WorkerCoroutine
import Verif.Lemmas.Decide

/-! Properties of the histories of one worker (C37, C38, C44). -/
namespace Verif.Worker
open Verif.Spec

/-- The data messages for a reference sent to a process, in a list of messages sent. -/
def repliesTo (src id : Nat) (out : List (Nat × Msg)) : List Msg :=
  (out.filter fun p => p.1 == src && match p.2 with
    | .data i _ => i == id
    | .putData i _ => i == id
    | _ => false).map (·.2)

theorem repliesTo_length (src id : Nat) (out : List (Nat × Msg)) :
    (repliesTo src id out).length = (keys out).count (id, src) := by
  induction out with
  | nil => rfl
  | cons p out ih =>
    obtain ⟨d, k⟩ := p
    simp only [repliesTo, List.length_map, keys] at ih ⊢
    rw [List.filter_cons, List.filterMap_cons]
    cases k with
    | data i v =>
      by_cases h1 : d = src
      · by_cases h2 : i = id
        · subst h1 h2; simp [ih]
        · simp [ih, h1, h2]
      · simp [ih, h1]
    | putData i v =>
      by_cases h1 : d = src
      · by_cases h2 : i = id
        · subst h1 h2; simp [ih]
        · simp [ih, h1, h2]
      · simp [ih, h1]
    | _ => simp [ih]

/-- User code for the examples: function 0 returns 7, method 0 adds one, method 1 doubles. -/
def exCode : World where
  call c args := if c = 1 then .ret (.list args) else .ret (.data 7)
  method c s _ :=
    match s with
    | .data n => if c = 0 then (.data (n + 1), .ret (.data n)) else (.data (2 * n), .ret (.data n))
    | v => (v, .raise 1)
  isAsync c := c == 9

end Verif.Worker

namespace Verif.Props
open Verif.Spec
open Verif.Worker

/-! ## C37 Every data request is answered exactly once -/

/-- Every blocking request for data that exists gets its own reply. -/
def C37_full : Prop := ∀ (W : World) (rank monitor : Nat) (es : List Event) (w : Worker),
  (Worker.init rank monitor).run W es = .ok w → (∀ src id b v, Event.op (.get src id b) ∈ es → Event.op (.putData id v) ∉ es) →
  ∀ src id, src ≠ 0 → w.store id ≠ none → (∃ b, Event.op (.get src id b) ∈ es) →
    (w.outbox.filter fun p => p.1 == src && match p.2 with | .data i _ => i == id | _ => false).length =
      (es.filter fun e => match e with | .op (.get s i true) => s == src && i == id | _ => false).length

/-- Process 5 first asks for reference 1 without blocking (for a task it holds back) and then blocking (a task in it calls
`get`). -/
def exTwoAsk : List Event :=
  [.op (.putData 0 (.code 0)), .op (.execute ⟨0, .fn 0, [], [1]⟩), .op (.get 5 1 false), .op (.get 5 1 true)]

/-- The blocking request of process 5 is not answered, because the data was already sent to it. -/
theorem C37_violated : ¬ C37_full := by
  intro h
  cases hr : (Worker.init 3 2).run exCode exTwoAsk with
  | error e =>
    have : ((Worker.init 3 2).run exCode exTwoAsk).toOption.isSome = true := by decide +kernel
    rw [hr] at this; simp [Except.toOption] at this
  | ok w =>
    have hw : ((Worker.init 3 2).run exCode exTwoAsk).toOption.map (fun w => (w.store 1, w.outbox)) =
        some (some (.data 7), [(2, .taskDone [some 1]), (5, .putData 1 (.data 7))]) := by decide +kernel
    rw [hr] at hw
    simp only [Except.toOption, Option.map_some, Option.some.injEq, Prod.mk.injEq] at hw
    have := h exCode 3 2 exTwoAsk w hr (by
      intro src id b v hm
      simp only [exTwoAsk, List.mem_cons, reduceCtorEq, Event.op.injEq, Msg.get.injEq, List.not_mem_nil, or_false,
        false_or] at hm
      rcases hm with ⟨-, rfl, -⟩ | ⟨-, rfl, -⟩ <;> simp [exTwoAsk]) 5 1 (by simp) (by rw [hw.1]; simp) ⟨true, by simp [exTwoAsk]⟩
    rw [hw.2] at this
    revert this
    decide

/-- A coroutine method waits for reference 5; a task in process 5 calls `get` for its output meanwhile. -/
def exEarlyAsk : List Event :=
  [.op (.actorCreate 7 (.data 0)), .op (.putOwner 5 3), .op (.actorExecute ⟨0, .fn 0, [.ref 5], [1]⟩ 7 9),
   .op (.get 5 1 true), .op (.putData 5 (.data 3)), .complete 0]

/-- The request is forgotten when the coroutine starts: the caller of `get` waits for ever, although the output is there. -/
theorem C37_coroutine_violated : ¬ C37_full := by
  intro h
  cases hr : (Worker.init 2 1).run exCode exEarlyAsk with
  | error e =>
    have : ((Worker.init 2 1).run exCode exEarlyAsk).toOption.isSome = true := by decide +kernel
    rw [hr] at this; simp [Except.toOption] at this
  | ok w =>
    have hw : ((Worker.init 2 1).run exCode exEarlyAsk).toOption.map (fun w => (w.store 1, w.outbox)) =
        some (some (.data 0), [(3, .get 2 5 false), (1, .taskDone [some 1])]) := by decide +kernel
    rw [hr] at hw
    simp only [Except.toOption, Option.map_some, Option.some.injEq, Prod.mk.injEq] at hw
    have := h exCode 2 1 exEarlyAsk w hr (by
      intro src id b v hm
      simp only [exEarlyAsk, List.mem_cons, reduceCtorEq, Event.op.injEq, Msg.get.injEq, List.not_mem_nil, or_false,
        false_or] at hm
      obtain ⟨-, rfl, -⟩ := hm
      simp [exEarlyAsk]) 5 1 (by simp) (by rw [hw.1]; simp) ⟨true, by simp [exEarlyAsk]⟩
    rw [hw.2] at this
    revert this
    decide

/-- Whether a reference can hold a piece of code in a worker: it was received, or it is an output of a task. -/
def MayHoldHere (es : List Event) (f c : Nat) : Prop :=
  Event.op (.putData f (.code c)) ∈ es ∨ (∃ r, Event.op (.execute r) ∈ es ∧ f ∈ r.outs) ∨
    ∃ r k n, Event.op (.actorExecute r k n) ∈ es ∧ f ∈ r.outs

/-- Requests for a reference produced in this worker, by tasks that return as many values as they have outputs: once the
value exists, exactly one message with it was sent to each process that asked, whatever the order of requests and tasks;
never more than one. The reply is direct if all requests were blocking. Missing: a second request of the same process,
as made by `exTwoAsk`, is not answered again, and a request for the output of a coroutine is lost if the coroutine starts
after it (`exEarlyAsk`). -/
theorem C37_answered_partial (W : World) (rank monitor : Nat) (es : List Event) (w : Worker)
    (hrun : (Worker.init rank monitor).run W es = .ok w)
    (hown : ∀ src id b v, Event.op (.get src id b) ∈ es → Event.op (.putData id v) ∉ es)
    (src id : Nat) (b : Bool) (hask : Event.op (.get src id b) ∈ es)
    (htask : ∀ r, Event.op (.execute r) ∈ es → ∃ f, r.task = .fn f)
    (hfull : ∀ r, Event.op (.execute r) ∈ es → id ∈ r.outs → 2 ≤ r.outs.length →
      ∀ f c, r.task = .fn f → MayHoldHere es f c → ∀ args vs, W.call c args = .ret (.list vs) → r.outs.length ≤ vs.length)
    (hfullM : ∀ r k n, Event.op (.actorExecute r k n) ∈ es → id ∈ r.outs → 2 ≤ r.outs.length →
      ∀ s args vs, (W.method n s args).2 = .ret (.list vs) → r.outs.length ≤ vs.length)
    (hsync : ∀ r, Event.op (.execute r) ∈ es → id ∈ r.outs → ∀ f c, r.task = .fn f → MayHoldHere es f c → W.isAsync c = false)
    (hsyncM : ∀ r k n, Event.op (.actorExecute r k n) ∈ es → id ∈ r.outs → W.isAsync n = false) :
    (repliesTo src id w.outbox).length ≤ 1 ∧
    (w.store id = none → repliesTo src id w.outbox = []) ∧
    (w.store id ≠ none → (repliesTo src id w.outbox).length = 1) ∧
    ((∀ b', Event.op (.get src id b') ∈ es → b' = true) → ∀ m ∈ repliesTo src id w.outbox, ∃ v, m = .data id v) ∧
    (src ≠ 0 → (∀ b', Event.op (.get src id b') ∈ es → b' = false) → ∀ m ∈ repliesTo src id w.outbox, ∃ v, m = .putData id v) := by
  have hF : ∀ e ∈ es, Fine W (MayHoldHere es) id (fun i => ∃ s b, Event.op (.get s i b) ∈ es) e := by
    intro e he
    cases e with
    | complete i => trivial
    | op m =>
      cases m with
      | execute r =>
        obtain ⟨f, hf⟩ := htask r he
        simp only [Fine, FullReq, hf]
        exact ⟨fun o ho c => Or.inr (Or.inl ⟨r, he, ho⟩),
          fun c hc args h1 h2 vs hv => hfull r he h1 h2 f c hf hc args vs hv, fun h1 c hc => hsync r he h1 f c hf hc⟩
      | actorExecute r k n =>
        exact ⟨fun o ho c => Or.inr (Or.inr ⟨r, k, n, he, ho⟩), fun s args h1 h2 vs hv => hfullM r k n he h1 h2 s args vs hv, hsyncM r k n he⟩
      | putData i v =>
        refine ⟨?_, fun c hc => Or.inl (hc ▸ he)⟩
        rintro ⟨s, b', hg⟩
        exact hown s i b' v hg he
      | get s i b' => exact ⟨s, b', he⟩
      | _ => trivial
  have hS := (served_run es (served_init (K := MayHoldHere es) W id rank monitor) (by simp) hF hrun).serve
  rw [List.nil_append] at hS
  have hreq : ∀ i s b', (i, s, b') ∈ es.flatMap reqOf ↔ Event.op (.get s i b') ∈ es := by
    intro i s b'
    rw [List.mem_flatMap]
    constructor
    · rintro ⟨e, he, hm⟩
      cases e with
      | complete j => simp [reqOf] at hm
      | op m =>
        cases m with
        | get s' i' b'' =>
          simp only [reqOf, List.mem_singleton, Prod.mk.injEq] at hm
          obtain ⟨rfl, rfl, rfl⟩ := hm
          exact he
        | _ => simp [reqOf] at hm
    · intro he
      exact ⟨_, he, by simp [reqOf]⟩
  have hcount : (repliesTo src id w.outbox).length = w.sent.count (id, src) := by
    rw [repliesTo_length, hS.sent]; simp
  have hle : (repliesTo src id w.outbox).length ≤ 1 := by
    rw [hcount]; exact List.nodup_iff_count.1 hS.nodup _
  have hin : ∀ m ∈ repliesTo src id w.outbox, (src, m) ∈ w.outbox ∧ ((∃ v, m = .data id v) ∨ ∃ v, m = .putData id v) := by
    intro m hm
    simp only [repliesTo, List.mem_map, List.mem_filter, Bool.and_eq_true, beq_iff_eq] at hm
    obtain ⟨⟨d, k⟩, ⟨h1, h2, h3⟩, rfl⟩ := hm
    simp only at h2 h3
    subst h2
    refine ⟨h1, ?_⟩
    cases k with
    | data i v => simp only [beq_iff_eq] at h3; subst h3; exact Or.inl ⟨v, rfl⟩
    | putData i v => simp only [beq_iff_eq] at h3; subst h3; exact Or.inr ⟨v, rfl⟩
    | _ => simp at h3
  refine ⟨hle, ?_, ?_, ?_, ?_⟩
  · intro hst
    cases hl : repliesTo src id w.outbox with
    | nil => rfl
    | cons m l =>
      have : 0 < w.sent.count (id, src) := by rw [← hcount, hl]; simp
      exact absurd hst (hS.has _ (List.count_pos_iff.1 this))
  · intro hst
    have hsent : (id, src) ∈ w.sent := by
      rcases hS.all (id, src, b) ((hreq _ _ _).2 hask) rfl with h1 | ⟨-, h1⟩ | ⟨-, h1⟩
      · exact h1
      · rcases (hS.nb _ h1).1 with hc | hc
        · simp at hc
        · exact absurd hc hst
      · rcases (hS.b _ h1).1 with hc | hc
        · simp at hc
        · exact absurd hc hst
    have := List.count_pos_iff.2 hsent
    omega
  · intro hb m hm
    obtain ⟨ho, h1 | ⟨v, rfl⟩⟩ := hin m hm
    · exact h1
    · have := hb _ ((hreq _ _ _).1 ((hS.kind _ ho).1 id v rfl).2)
      simp at this
  · intro h0 hb m hm
    obtain ⟨ho, ⟨v, rfl⟩ | h1⟩ := hin m hm
    · rcases (hS.kind _ ho).2 id v rfl with hc | ⟨hc, -⟩
      · have := hb _ ((hreq _ _ _).1 hc)
        simp at this
      · exact absurd hc h0
    · exact h1

/-- Requests before and after the data exists: processes 5 and 0 each get one reply. -/
example : ((Worker.init 3 2).run exCode [.op (.get 5 1 true), .op (.putData 0 (.code 0)), .op (.execute ⟨0, .fn 0, [], [1]⟩),
    .op (.get 0 1 true)]).toOption.map (fun w => (repliesTo 5 1 w.outbox, repliesTo 0 1 w.outbox)) =
    some ([.data 1 (.data 7)], [.data 1 (.data 7)]) := by decide +kernel

/-- The same request is answered if it comes after the start of the coroutine. -/
example : ((Worker.init 2 1).run exCode [.op (.actorCreate 7 (.data 0)), .op (.putOwner 5 3),
    .op (.actorExecute ⟨0, .fn 0, [.ref 5], [1]⟩ 7 9), .op (.putData 5 (.data 3)), .op (.get 5 1 true), .complete 0]).toOption.map
    (fun w => repliesTo 5 1 w.outbox) = some [.data 1 (.data 0)] := by decide +kernel

/-- A task that returns too few values: the request kept for the missing output is forgotten. -/
example : ((Worker.init 3 2).run exCode [.op (.get 5 2 true), .op (.putData 0 (.code 1)),
    .op (.execute ⟨0, .fn 0, [.data 4], [1, 2]⟩)]).toOption.map (fun w => (w.store 1, w.store 2, w.bGet, repliesTo 5 2 w.outbox)) =
    some (some (.data 4), none, [], []) := by decide +kernel

private theorem mem_reqs (es : List Event) (i s : Nat) (b : Bool) :
    (i, s, b) ∈ es.flatMap reqOf ↔ Event.op (.get s i b) ∈ es := by
  rw [List.mem_flatMap]
  constructor
  · rintro ⟨e, he, hm⟩
    cases e with
    | complete j => simp [reqOf] at hm
    | op m =>
      cases m with
      | get s' i' b'' =>
        simp only [reqOf, List.mem_singleton, Prod.mk.injEq] at hm
        obtain ⟨rfl, rfl, rfl⟩ := hm
        exact he
      | _ => simp [reqOf] at hm
  · intro he
    exact ⟨_, he, by simp [reqOf]⟩

private theorem reply_asked {t : Nat} {H : List Req} {w : Worker} (hS : Serve [] t [] H w) {src id : Nat}
    (h : (id, src) ∈ w.sent) : ∃ b, (id, src, b) ∈ H := by
  rw [hS.sent] at h
  simp only [List.append_nil, List.mem_reverse, keys, List.mem_filterMap] at h
  obtain ⟨⟨d, m⟩, hp, hm⟩ := h
  cases m with
  | data i v =>
    simp only [Option.some.injEq, Prod.mk.injEq] at hm
    obtain ⟨rfl, rfl⟩ := hm
    rcases (hS.kind _ hp).2 i v rfl with h1 | ⟨h1, h2⟩
    · exact ⟨_, h1⟩
    · simp only at h1
      subst h1
      exact ⟨false, h2⟩
  | putData i v =>
    simp only [Option.some.injEq, Prod.mk.injEq] at hm
    obtain ⟨rfl, rfl⟩ := hm
    exact ⟨_, ((hS.kind _ hp).1 i v rfl).2⟩
  | _ => simp at hm

/-- For every history, with coroutines and with tasks that return too few values: at most one message with the value of a
reference made here is sent to each process, only to processes that asked, and only when the value exists. Missing: that a
message is sent (`C37_answered_partial`, `C37_coroutine_partial`). -/
theorem C37_once_partial (W : World) (rank monitor : Nat) (es : List Event) (w : Worker)
    (hrun : (Worker.init rank monitor).run W es = .ok w)
    (hown : ∀ src id b v, Event.op (.get src id b) ∈ es → Event.op (.putData id v) ∉ es) (src id : Nat) :
    (repliesTo src id w.outbox).length ≤ 1 ∧
    (repliesTo src id w.outbox ≠ [] → w.store id ≠ none ∧ ∃ b, Event.op (.get src id b) ∈ es) := by
  obtain ⟨t', ht'⟩ := fresh_ref es
  have hF : ∀ e ∈ es, Fine W (fun _ _ => True) t' (fun i => ∃ s b, Event.op (.get s i b) ∈ es) e := by
    intro e he
    refine fine_other (ht' e he) ?_ ?_
    · rintro i v rfl ⟨s, b, hg⟩
      exact hown s i b v hg he
    · rintro s i b rfl
      exact ⟨s, b, he⟩
  have hS := (served_run es (served_init (K := fun _ _ => True) W t' rank monitor) (by simp) hF hrun).serve
  rw [List.nil_append] at hS
  have hcount : (repliesTo src id w.outbox).length = w.sent.count (id, src) := by
    rw [repliesTo_length, hS.sent]; simp
  refine ⟨by rw [hcount]; exact List.nodup_iff_count.1 hS.nodup _, fun hne => ?_⟩
  have hin : (id, src) ∈ w.sent := by
    apply List.count_pos_iff.1
    rw [← hcount]
    exact List.length_pos_iff.2 hne
  obtain ⟨b, hb⟩ := reply_asked hS hin
  exact ⟨hS.has _ hin, b, (mem_reqs es id src b).1 hb⟩

/-- Two requests of a process for the output of a coroutine: one reply. -/
example : ((Worker.init 2 1).run exCode [.op (.actorCreate 7 (.data 0)), .op (.actorExecute ⟨0, .fn 0, [], [1]⟩ 7 9),
    .op (.get 5 1 true), .op (.get 5 1 false), .complete 0, .op (.get 5 1 true)]).toOption.map
    (fun w => (repliesTo 5 1 w.outbox).length) = some 1 := by decide +kernel

/-- Which requests for the output of a coroutine are answered. After the history `pre` the event `e` starts the coroutine,
and no other task makes the reference. Then a process gets exactly one message with the value if it asks after the start and
the value is made, and none otherwise: what was asked before the start is lost. -/
theorem C37_coroutine_partial (W : World) (rank monitor : Nat) (pre post : List Event) (e : Event) (w0 w1 w : Worker)
    (h0 : (Worker.init rank monitor).run W pre = .ok w0) (h1 : w0.run W [e] = .ok w1) (h2 : w1.run W post = .ok w)
    (hown : ∀ src id b v, Event.op (.get src id b) ∈ pre ++ e :: post → Event.op (.putData id v) ∉ pre ++ e :: post)
    (src id : Nat) (hbefore : ∀ k ∈ w0.running, id ∉ k.outs) (hstart : ∃ k ∈ w1.running, id ∈ k.outs)
    (hnone : w1.store id = none)
    (hfull : ∀ k ∈ w1.running, id ∈ k.outs → 2 ≤ k.outs.length → ∀ vs, k.result = .ret (.list vs) → k.outs.length ≤ vs.length)
    (hpend : ∀ r ∈ w1.pending ++ w1.pendingActor, id ∉ r.outs) (hlater : ∀ r, Event.op (.execute r) ∈ post → id ∉ r.outs)
    (hlaterM : ∀ r k n, Event.op (.actorExecute r k n) ∈ post → id ∉ r.outs) :
    (repliesTo src id w.outbox).length ≤ 1 ∧
    ((repliesTo src id w.outbox).length = 1 ↔ w.store id ≠ none ∧ ∃ b, Event.op (.get src id b) ∈ post) := by
  obtain ⟨t', ht'⟩ := fresh_ref (pre ++ e :: post)
  have hput : ∀ x ∈ pre ++ e :: post, ∀ i v, x = .op (.putData i v) → ¬ ∃ s b, Event.op (.get s i b) ∈ pre ++ e :: post := by
    rintro x hx i v rfl ⟨s, b, hg⟩
    exact hown s i b v hg hx
  have hget : ∀ x ∈ pre ++ e :: post, ∀ s i b, x = .op (.get s i b) → ∃ s b, Event.op (.get s i b) ∈ pre ++ e :: post := by
    rintro x hx s i b rfl
    exact ⟨s, b, hx⟩
  have hR : ∀ l : List Event, (∀ x ∈ l, x ∈ pre ++ e :: post) → ∀ q ∈ l.flatMap reqOf,
      ∃ s b, Event.op (.get s q.1 b) ∈ pre ++ e :: post := by
    intro l hl q hq
    exact ⟨q.2.1, q.2.2, hl _ ((mem_reqs l q.1 q.2.1 q.2.2).1 hq)⟩
  have hpre : ∀ x ∈ pre, x ∈ pre ++ e :: post := fun x hx => List.mem_append_left _ hx
  have he : e ∈ pre ++ e :: post := by simp
  have hpost : ∀ x ∈ post, x ∈ pre ++ e :: post := fun x hx => List.mem_append_right _ (List.mem_cons_of_mem _ hx)
  have s0 := served_run (R := fun i => ∃ s b, Event.op (.get s i b) ∈ pre ++ e :: post) pre
    (served_init (K := fun _ _ => True) W t' rank monitor) (by simp)
    (fun x hx => fine_other (ht' x (hpre x hx)) (hput x (hpre x hx)) (hget x (hpre x hx))) h0
  rw [List.nil_append] at s0
  have s1 := served_run (R := fun i => ∃ s b, Event.op (.get s i b) ∈ pre ++ e :: post) [e] s0 (hR pre hpre)
    (fun x hx => by
      rw [List.mem_singleton] at hx
      subst hx
      exact fine_other (ht' x he) (hput x he) (hget x he)) h1
  have s1' := served_restart s1 (run_cleared (fun hc => by
      obtain ⟨k, hk, hc⟩ := hc
      exact hbefore k hk hc) h1 hstart) hnone hpend (fun k hk ho hl vs hv => hfull k hk ho hl vs hv)
  have hnot : ∀ x ∈ post, id ∉ outsOf x := by
    intro x hx
    cases x with
    | complete i => simp [outsOf]
    | op m =>
      cases m with
      | execute r => exact hlater r hx
      | actorExecute r k n => exact hlaterM r k n hx
      | _ => simp [outsOf]
  have hS := (served_run (R := fun i => ∃ s b, Event.op (.get s i b) ∈ pre ++ e :: post) post s1' (by
      intro q hq
      have hq := (List.mem_filter.1 hq).1
      rw [List.mem_append] at hq
      rcases hq with hq | hq
      · exact hR pre hpre q hq
      · exact hR [e] (by simp) q hq)
    (fun x hx => fine_other (hnot x hx) (hput x (hpost x hx)) (hget x (hpost x hx))) h2).serve
  have hcount : (repliesTo src id w.outbox).length = w.sent.count (id, src) := by
    rw [repliesTo_length, hS.sent]; simp
  have hle : (repliesTo src id w.outbox).length ≤ 1 := by
    rw [hcount]; exact List.nodup_iff_count.1 hS.nodup _
  refine ⟨hle, ?_, ?_⟩
  · intro h1
    have hin : (id, src) ∈ w.sent := by
      apply List.count_pos_iff.1
      omega
    obtain ⟨b, hb⟩ := reply_asked hS hin
    refine ⟨hS.has _ hin, b, ?_⟩
    rw [List.mem_append] at hb
    rcases hb with hb | hb
    · have := (List.mem_filter.1 hb).2
      simp at this
    · exact (mem_reqs post id src b).1 hb
  · rintro ⟨hst, b, hb⟩
    have hsent : (id, src) ∈ w.sent := by
      rcases hS.all (id, src, b) (List.mem_append_right _ ((mem_reqs post id src b).2 hb)) rfl with h1 | ⟨-, h1⟩ | ⟨-, h1⟩
      · exact h1
      · rcases (hS.nb _ h1).1 with hc | hc
        · simp at hc
        · exact absurd hc hst
      · rcases (hS.b _ h1).1 with hc | hc
        · simp at hc
        · exact absurd hc hst
    have := List.count_pos_iff.2 hsent
    omega

/-- Process 5 asks before the start of the coroutine and process 6 after it: only process 6 gets the value. -/
example : ((Worker.init 2 1).run exCode [.op (.actorCreate 7 (.data 0)), .op (.putOwner 5 3),
    .op (.actorExecute ⟨0, .fn 0, [.ref 5], [1]⟩ 7 9), .op (.get 5 1 true), .op (.putData 5 (.data 3)), .op (.get 6 1 true),
    .complete 0]).toOption.map (fun w => (w.store 1, repliesTo 5 1 w.outbox, repliesTo 6 1 w.outbox)) =
    some (some (.data 0), [], [.data 1 (.data 0)]) := by decide +kernel

/-! ## C38 A task whose arguments are all available is not left waiting -/

/-- Whenever a worker is idle, every task it holds back has a missing argument. -/
def C38_full : Prop := ∀ (W : World) (rank monitor : Nat) (es : List Event) (w : Worker),
  (∀ f args v, W.call f args = .ret v → refs v = []) → (∀ f s args v, (W.method f s args).2 = .ret v → refs v = []) →
  (∀ id v, Event.op (.putData id v) ∈ es → refs v = []) → (Worker.init rank monitor).run W es = .ok w →
  ∀ r ∈ w.pending ++ w.pendingActor, ∃ i ∈ refsList r.args, w.store i = none

/-- User code that returns only data. -/
def exData : World where
  call _ _ := .ret (.data 7)
  method _ s _ := (s, .ret (.data 8))
  isAsync c := c == 9

/-- A plain task needs the output of an actor method that waits for reference 5. -/
def exActorFirst : List Event :=
  [.op (.actorCreate 7 (.data 0)), .op (.putOwner 5 3), .op (.actorExecute ⟨0, .fn 0, [.ref 5], [1]⟩ 7 0),
   .op (.putData 0 (.code 0)), .op (.putOwner 1 2), .op (.execute ⟨1, .fn 0, [.ref 1], [2]⟩), .op (.putData 5 (.data 3))]

/-- A plain task needs the output of a coroutine function that runs in the same worker. -/
def exCoroutine : List Event :=
  [.op (.putData 0 (.code 0)), .op (.putData 9 (.code 9)), .op (.execute ⟨0, .fn 9, [], [1]⟩), .op (.putOwner 1 2),
   .op (.execute ⟨1, .fn 0, [.ref 1], [2]⟩), .complete 0]

/-- A task submitted by one process arrives before the task, submitted by another process, that makes its argument; the
second waits for reference 5. -/
def exOvertaken : List Event :=
  [.op (.putData 0 (.code 0)), .op (.putOwner 1 2), .op (.execute ⟨1, .fn 0, [.ref 1], [2]⟩), .op (.putOwner 5 3),
   .op (.execute ⟨0, .fn 0, [.ref 5], [1]⟩), .op (.putData 5 (.data 3))]

theorem lost_task (es : List Event) (hput : ∀ id v, Event.op (.putData id v) ∈ es → refs v = [])
    (hw : ((Worker.init 2 1).run exData es).toOption.map (fun w => (w.pending, w.store 1)) =
      some ([⟨1, .fn 0, [.ref 1], [2]⟩], some (.data 7))) : ¬ C38_full := by
  intro h
  cases hr : (Worker.init 2 1).run exData es with
  | error e => rw [hr] at hw; simp [Except.toOption] at hw
  | ok w =>
    rw [hr] at hw
    simp only [Except.toOption, Option.map_some, Option.some.injEq, Prod.mk.injEq] at hw
    obtain ⟨i, hi, hn⟩ := h exData 2 1 es w (by intro f args v hv; simp [exData] at hv; rw [← hv]; rfl)
      (by intro f s args v hv; simp [exData] at hv; rw [← hv]; rfl) hput hr ⟨1, .fn 0, [.ref 1], [2]⟩ (by rw [hw.1]; simp)
    simp only [refsList, refs, List.append_nil, List.mem_singleton] at hi
    subst hi
    rw [hw.2] at hn
    simp at hn

/-- The output of a method that ran because its argument arrived does not wake up a plain task. -/
theorem C38_actor_violated : ¬ C38_full := by
  intro h
  cases hr : (Worker.init 2 1).run exData exActorFirst with
  | error e =>
    have : ((Worker.init 2 1).run exData exActorFirst).toOption.isSome = true := by decide +kernel
    rw [hr] at this; simp [Except.toOption] at this
  | ok w =>
    have hw : ((Worker.init 2 1).run exData exActorFirst).toOption.map (fun w => (w.pending, w.store 1)) =
      some ([⟨1, .fn 0, [.ref 1], [2]⟩], some (.data 8)) := by decide +kernel
    rw [hr] at hw
    simp only [Except.toOption, Option.map_some, Option.some.injEq, Prod.mk.injEq] at hw
    obtain ⟨i, hi, hn⟩ := h exData 2 1 exActorFirst w (by intro f args v hv; simp [exData] at hv; rw [← hv]; rfl)
      (by intro f s args v hv; simp [exData] at hv; rw [← hv]; rfl)
      (by intro id v hv; simp [exActorFirst] at hv; rcases hv with ⟨-, rfl⟩ | ⟨-, rfl⟩ <;> rfl) hr ⟨1, .fn 0, [.ref 1], [2]⟩ (by rw [hw.1]; simp)
    simp only [refsList, refs, List.append_nil, List.mem_singleton] at hi
    subst hi
    rw [hw.2] at hn
    simp at hn

/-- The output of a coroutine does not wake up a plain task. -/
theorem C38_coroutine_violated : ¬ C38_full :=
  lost_task exCoroutine (by intro id v hv; simp [exCoroutine] at hv; rcases hv with ⟨-, rfl⟩ | ⟨-, rfl⟩ <;> rfl)
    (by decide +kernel)

/-- A task held back is not woken up by the output of a task that came later. -/
theorem C38_overtaken_violated : ¬ C38_full :=
  lost_task exOvertaken (by intro id v hv; simp [exOvertaken] at hv; rcases hv with ⟨-, rfl⟩ | ⟨-, rfl⟩ <;> rfl)
    (by decide +kernel)

/-! ## C44 Actor methods run in call order -/

/-- The methods of an actor that were executed, in the order of their calls. -/
def C44_full : Prop := ∀ (W : World) (rank monitor : Nat) (es : List Event) (w : Worker) (h : Nat),
  (Worker.init rank monitor).run W es = .ok w →
  ((w.log.filter fun r => match r.task with | .method k _ => k == h | .fn _ => false).map (·.tag)).Sublist
    (es.filterMap fun e => match e with | .op (.actorExecute r k _) => if k = h then some r.tag else none | _ => none)

/-- Two calls `m1(x)`, `m2()` where `x` arrives later. -/
def exLate : List Event :=
  [.op (.actorCreate 7 (.data 5)), .op (.putOwner 5 3), .op (.actorExecute ⟨0, .fn 0, [.ref 5], [1]⟩ 7 0),
   .op (.actorExecute ⟨1, .fn 0, [], [2]⟩ 7 1), .op (.putData 5 (.data 3))]

/-- The second call overtakes the first, and the state of the actor is another one. -/
theorem C44_violated : ¬ C44_full := by
  intro h
  cases hr : (Worker.init 2 1).run exCode exLate with
  | error e =>
    have : ((Worker.init 2 1).run exCode exLate).toOption.isSome = true := by decide +kernel
    rw [hr] at this; simp [Except.toOption] at this
  | ok w =>
    have hw : ((Worker.init 2 1).run exCode exLate).toOption.map (fun w => w.log) =
      some [⟨1, .method 7 1, [], [2]⟩, ⟨0, .method 7 0, [.data 3], [1]⟩] := by decide +kernel
    rw [hr] at hw
    simp only [Except.toOption, Option.map_some, Option.some.injEq] at hw
    have := h exCode 2 1 exLate w 7 hr
    rw [hw] at this
    revert this
    decide

example : ((Worker.init 2 1).run exCode exLate).toOption.map (fun w => w.actors 7) = some (some (.data 11)) ∧
    ((Worker.init 2 1).run exCode [.op (.actorCreate 7 (.data 5)), .op (.putOwner 5 3), .op (.putData 5 (.data 3)),
      .op (.actorExecute ⟨0, .fn 0, [.ref 5], [1]⟩ 7 0), .op (.actorExecute ⟨1, .fn 0, [], [2]⟩ 7 1)]).toOption.map
      (fun w => w.actors 7) = some (some (.data 12)) := by decide +kernel

/-- If no argument of a method call contains a reference and the methods are no coroutines, then the calls are executed
in the order in which they arrive, all of them, and the state is that of a sequential program. The worker may at the same
time run tasks, methods of other actors and coroutines. For calls with references see `C44_available_partial`. -/
theorem C44_order_partial (W : World) (rank monitor : Nat) (pre post : List Event) (h : Nat) (s : Val) (w : Worker)
    (hrun : (Worker.init rank monitor).run W (pre ++ .op (.actorCreate h s) :: post) = .ok w)
    (htask : ∀ r, Event.op (.execute r) ∈ pre ++ post → ∃ f, r.task = .fn f)
    (hpre : ∀ r n, Event.op (.actorExecute r h n) ∉ pre) (hpost : ∀ s', Event.op (.actorCreate h s') ∉ post)
    (hargs : ∀ r n, Event.op (.actorExecute r h n) ∈ post → refsList r.args = [] ∧ W.isAsync n = false) :
    let calls := post.filterMap fun e => match e with
      | .op (.actorExecute r k n) => if k = h then some (r, n) else none
      | _ => none
    (w.log.filter fun r => match r.task with | .method k _ => k == h | .fn _ => false) =
      calls.map (fun q => { q.1 with task := .method h q.2 }) ∧
    w.actors h = some (calls.foldl (fun s q => match firstFailure q.1.args with
      | some _ => s
      | none => (W.method q.2 s q.1.args).1) s) := by
  obtain ⟨w1, r1, r2⟩ := run_append pre hrun
  have hflat : ∀ es : List Event, es.flatMap (callsTo h) = es.filterMap fun e => match e with
      | .op (.actorExecute r k n) => if k = h then some (r, n) else none
      | _ => none := by
    intro es
    induction es with
    | nil => rfl
    | cons e es ih =>
      rw [List.flatMap_cons, List.filterMap_cons, ih]
      cases e with
      | complete i => rfl
      | op m =>
        cases m with
        | actorExecute r k n =>
          simp only [callsTo]
          by_cases hk : k = h
          · simp [hk]
          · simp [hk]
        | _ => rfl
  have hnil : pre.flatMap (callsTo h) = [] := by
    rw [List.flatMap_eq_nil_iff]
    intro e he
    cases e with
    | complete i => rfl
    | op m =>
      cases m with
      | actorExecute r k n =>
        simp only [callsTo]
        rw [if_neg]
        rintro rfl
        exact hpre r n he
      | _ => rfl
  obtain ⟨c1, l1⟩ := clear_run pre (w := Worker.init rank monitor) (by simp [Clear, Worker.init])
    (fun r hr => htask r (List.mem_append_left _ hr)) hnil r1
  simp only [Worker.run, Worker.handle] at r2
  obtain ⟨a, b⟩ := actor_run post (w := { w1 with actors := upd w1.actors h s }) (s := s) c1 (by simp [upd]) (by
    intro e he
    cases e with
    | complete i => trivial
    | op m =>
      cases m with
      | execute r => exact htask r (List.mem_append_right _ he)
      | actorCreate k s' => rintro rfl; exact hpost s' he
      | actorExecute r k n => rintro rfl; exact hargs r n he
      | _ => trivial) r2
  rw [hflat] at a b
  refine ⟨?_, a⟩
  have : (w.log.filter fun r => match r.task with | .method k _ => k == h | .fn _ => false) = w.log.filter (ofActor h) := rfl
  rw [this, b, l1]
  simp [Worker.init]

/-- The same for calls whose arguments contain references, if the worker has their values when the call arrives: the calls are executed
in the order of arrival, all of them, with the values the worker had at that time, and the state is that of a sequential program.
Missing: calls that have to wait for a reference (violated), coroutines. -/
theorem C44_available_partial (W : World) (rank monitor : Nat) (pre post : List Event) (h : Nat) (s : Val) (w : Worker)
    (hrun : (Worker.init rank monitor).run W (pre ++ .op (.actorCreate h s) :: post) = .ok w)
    (htask : ∀ r, Event.op (.execute r) ∈ pre ++ post → ∃ f, r.task = .fn f)
    (hpre : ∀ r n, Event.op (.actorExecute r h n) ∉ pre) (hpost : ∀ s', Event.op (.actorCreate h s') ∉ post)
    (hargs : ∀ a r n b wa, post = a ++ .op (.actorExecute r h n) :: b →
      (Worker.init rank monitor).run W (pre ++ .op (.actorCreate h s) :: a) = .ok wa →
      W.isAsync n = false ∧ ∀ i ∈ refsList r.args, ∃ x, wa.store i = some x ∧ ∀ j, x ≠ .ref j) :
    ∃ calls : List (Request × Nat),
      (∀ a r n b wa, post = a ++ .op (.actorExecute r h n) :: b →
        (Worker.init rank monitor).run W (pre ++ .op (.actorCreate h s) :: a) = .ok wa →
        calls[countCalls h a]? =
          some ({ r with args := substList wa.store r.args }, n)) ∧
      calls.length = countCalls h post ∧
      (w.log.filter fun r => match r.task with | .method k _ => k == h | .fn _ => false) =
        calls.map (fun q => { q.1 with task := .method h q.2 }) ∧
      w.actors h = some (calls.foldl (fun s q => match firstFailure q.1.args with
        | some _ => s
        | none => (W.method q.2 s q.1.args).1) s) := by
  obtain ⟨w1, r1, r2⟩ := run_append pre hrun
  have hnil : pre.flatMap (callsTo h) = [] := by
    rw [List.flatMap_eq_nil_iff]
    intro e he
    cases e with
    | complete i => rfl
    | op m =>
      cases m with
      | actorExecute r k n =>
        simp only [callsTo]
        rw [if_neg]
        rintro rfl
        exact hpre r n he
      | _ => rfl
  obtain ⟨c1, l1⟩ := clear_run pre (w := Worker.init rank monitor) (by simp [Clear, Worker.init])
    (fun r hr => htask r (List.mem_append_left _ hr)) hnil r1
  have r2' := r2
  simp only [Worker.run, Worker.handle] at r2
  have hjoin : ∀ a wa, Worker.run W { w1 with actors := upd w1.actors h s } a = .ok wa →
      (Worker.init rank monitor).run W (pre ++ .op (.actorCreate h s) :: a) = .ok wa := by
    intro a wa ha
    have : w1.run W (.op (.actorCreate h s) :: a) = .ok wa := by simpa only [Worker.run, Worker.handle] using ha
    exact run_join pre r1 this
  obtain ⟨ha, hb⟩ := avail_run post (w := { w1 with actors := upd w1.actors h s }) (s := s) c1 (by simp [upd])
    (fun r hr => htask r (List.mem_append_right _ hr)) hpost
    (allAvail_of post fun a r n b wa he ha => hargs a r n b wa he (hjoin a wa ha)) r2
  refine ⟨arrived W h { w1 with actors := upd w1.actors h s } post, ?_, ?_, ?_, ha⟩
  · intro a r n b wa he hwa
    obtain ⟨w1', q1, q2⟩ := run_append pre hwa
    rw [r1] at q1
    cases q1
    simp only [Worker.run, Worker.handle] at q2
    subst he
    exact arrived_get a q2
  · exact arrived_length post r2
  · have : (w.log.filter fun r => match r.task with | .method k _ => k == h | .fn _ => false) = w.log.filter (ofActor h) := rfl
    rw [this, hb]
    simp only [l1]
    simp [Worker.init]

/-- Two calls around a task; the first one gets the result of an earlier task. -/
example : ((Worker.init 2 1).run exCode [.op (.putData 0 (.code 0)), .op (.actorCreate 7 (.data 5)), .op (.execute ⟨2, .fn 0, [], [3]⟩),
    .op (.actorExecute ⟨0, .fn 0, [.ref 3, .data 4], [1]⟩ 7 0),
    .op (.actorExecute ⟨1, .fn 0, [], [2]⟩ 7 1)]).toOption.map (fun w => (w.log.map (fun r => (r.tag, r.args)), w.actors 7)) =
    some ([(2, []), (0, [.data 7, .data 4]), (1, [])], some (.data 12)) := by decide +kernel

/-- Two calls without references around a task. -/
example : ((Worker.init 2 1).run exCode [.op (.putData 0 (.code 0)), .op (.actorCreate 7 (.data 5)),
    .op (.actorExecute ⟨0, .fn 0, [.data 1], [1]⟩ 7 0), .op (.execute ⟨2, .fn 0, [], [3]⟩),
    .op (.actorExecute ⟨1, .fn 0, [], [2]⟩ 7 1)]).toOption.map (fun w => (w.log.map (·.tag), w.actors 7)) =
    some ([0, 2, 1], some (.data 12)) := by decide +kernel

private theorem process_log {W : World} {w w' : Worker} {r : Request} {o : Option Request} (hp : w.process W r = .ok (o, w')) :
    ((o = none ∧ ∃ args, w'.log = w.log ++ [{ r with args := args }]) ∨ ((∃ args, o = some { r with args := args }) ∧ w'.log = w.log)) ∧
      w'.pending = w.pending ∧ w'.pendingActor = w.pendingActor := by
  simp only [Worker.process] at hp
  split at hp
  · split at hp
    · simp at hp
    · rename_i hm
      simp only [Except.ok.injEq, Prod.mk.injEq] at hp
      obtain ⟨rfl, rfl⟩ := hp
      have hs := (materializeList_quiet _ hm).same
      exact ⟨Or.inr ⟨⟨_, rfl⟩, by rw [hs]⟩, by rw [hs], by rw [hs]⟩
    · rename_i args w1 hm
      split at hp
      · rename_i he
        simp only [Except.ok.injEq, Prod.mk.injEq] at hp
        obtain ⟨rfl, rfl⟩ := hp
        have hs := (materializeList_quiet _ hm).same
        obtain ⟨a, b, c, d⟩ := checked_actors he
        exact ⟨Or.inl ⟨rfl, args, by rw [b, hs]⟩, by rw [c, hs], by rw [d, hs]⟩
      · simp at hp
  · simp at hp

private theorem processAll_log {W : World} : ∀ (rs : List Request) {w w' : Worker} {l : List Request}, w.processAll W rs = .ok (l, w') →
    ∃ ex : List Request, w'.log = w.log ++ ex ∧ (ex.map (·.tag)).Sublist (rs.map (·.tag)) ∧ (l.map (·.tag)).Sublist (rs.map (·.tag)) ∧
      (ex.map (·.tag) ++ l.map (·.tag)).Perm (rs.map (·.tag)) ∧ w'.pending = w.pending ∧ w'.pendingActor = w.pendingActor
  | [], w, w', l, hp => by
    simp only [Worker.processAll, Except.ok.injEq, Prod.mk.injEq] at hp
    obtain ⟨rfl, rfl⟩ := hp
    exact ⟨[], by simp⟩
  | r :: rs, w, w', l, hp => by
    simp only [Worker.processAll] at hp
    split at hp
    · simp at hp
    · rename_i o w1 h1
      split at hp
      · simp at hp
      · rename_i l2 w2 h2
        simp only [Except.ok.injEq, Prod.mk.injEq] at hp
        obtain ⟨rfl, rfl⟩ := hp
        obtain ⟨a, b, c⟩ := process_log h1
        obtain ⟨ex, e1, e2, e3, e4, e5, e6⟩ := processAll_log rs h2
        rcases a with ⟨rfl, args, a⟩ | ⟨⟨args, rfl⟩, a⟩
        · refine ⟨{ r with args := args } :: ex, by rw [e1, a]; simp, ?_, ?_, ?_, e5.trans b, e6.trans c⟩
          · simpa using e2
          · simpa using e3.trans (List.sublist_cons_self _ _)
          · simpa using e4
        · refine ⟨ex, by rw [e1, a], ?_, ?_, ?_, e5.trans b, e6.trans c⟩
          · simpa using e2.trans (List.sublist_cons_self _ _)
          · simpa using e3
          · simp only [Option.toList_some, List.cons_append, List.nil_append, List.map_cons]
            exact List.perm_middle.trans (e4.cons _)

/-- Exactly which calls overtake: a call that arrives when the worker has its arguments is executed at once, before all calls that are held back,
also earlier calls of the same actor. -/
theorem C44_overtaken_partial (W : World) (w w' : Worker) (r : Request) (h n : Nat)
    (hargs : ∀ i ∈ refsList r.args, ∃ x, w.store i = some x ∧ ∀ j, x ≠ .ref j) (hh : w.handle W (.actorExecute r h n) = .ok w') :
    ∃ more, w'.log = w.log ++ { r with task := .method h n, args := substList w.store r.args } :: more := by
  simp only [Worker.handle] at hh
  cases hs : w.actors h with
  | none => rw [hs] at hh; simp at hh
  | some st =>
    rw [hs] at hh
    simp only [Worker.process, Worker.known, if_true, materializeList_avail w false r.args hargs] at hh
    split at hh
    · simp at hh
    · rename_i he
      split at he <;> simp at he
    · rename_i w1 he
      split at he
      · rename_i w2 hx
        simp only [Except.ok.injEq, Prod.mk.injEq, true_and] at he
        subst he
        obtain ⟨-, b, -, -⟩ := checked_actors hx
        simp only [Worker.checkActorTasks] at hh
        split at hh
        · simp at hh
        · rename_i l w3 hp
          cases hh
          obtain ⟨ex, e, -⟩ := processAll_log _ hp
          refine ⟨ex, ?_⟩
          simp only
          rw [e]
          simp only at b
          rw [b]
          simp
      · simp at he

/-- Call 0 waits for reference 5; call 1, which came later, is executed. -/
example : ((Worker.init 2 1).run exCode [.op (.actorCreate 7 (.data 5)), .op (.putOwner 5 3),
    .op (.actorExecute ⟨0, .fn 0, [.ref 5], [1]⟩ 7 0), .op (.actorExecute ⟨1, .fn 0, [], [2]⟩ 7 1)]).toOption.map
      (fun w => (w.log.map (·.tag), w.pendingActor.map (·.tag))) = some ([1], [0]) := by decide +kernel

/-- And which are overtaken: a call that arrives when an argument is missing is not executed and is kept behind the calls kept already. -/
theorem C44_held_partial (W : World) (w w' : Worker) (r : Request) (h n : Nat) (hclosed : ∀ i v, w.store i = some v → refs v = [])
    (hknown : ∀ i ∈ refsList r.args, w.store i ≠ none ∨ w.owner i ≠ none) (i : Nat) (hi : i ∈ refsList r.args) (hmiss : w.store i = none)
    (hh : w.handle W (.actorExecute r h n) = .ok w') :
    w'.log = w.log ∧ w'.actors = w.actors ∧
      w'.pendingActor = w.pendingActor ++ [{ r with task := .method h n, args := substList w.store r.args }] := by
  obtain ⟨w1, hm, ha⟩ := materializeList_spec r.args w false hclosed hknown
  have hmis : Missing w (refsList r.args) = true := by
    simp only [Missing, List.any_eq_true]
    exact ⟨i, hi, by rw [hmiss]; rfl⟩
  rw [hmis] at hm
  simp only [Worker.handle] at hh
  cases hs : w.actors h with
  | none => rw [hs] at hh; simp at hh
  | some st =>
    rw [hs] at hh
    simp only [Worker.process, Worker.known, if_true, hm, Bool.false_or, Except.ok.injEq] at hh
    cases hh
    exact ⟨ha.log, ha.actors, by simp only; rw [ha.pendingActor]⟩

/-- Two calls with a missing argument are kept in the order of arrival; the state of the actor does not change. -/
example : ((Worker.init 2 1).run exCode [.op (.actorCreate 7 (.data 5)), .op (.putOwner 5 3), .op (.putOwner 6 3),
    .op (.actorExecute ⟨0, .fn 0, [.ref 5], [1]⟩ 7 0), .op (.actorExecute ⟨1, .fn 0, [.data 1, .ref 6], [2]⟩ 7 1)]).toOption.map
      (fun w => (w.log.map (·.tag), w.pendingActor.map (·.tag), w.actors 7)) = some ([], [0, 1], some (.data 5)) := by decide +kernel

/-- Data that arrives lets calls kept back run, in the order in which they arrived: the calls executed and the calls still kept are parts of the
list of the calls kept before, each in its order, and together they are all of them. (Tasks kept back are looked at before.) -/
theorem C44_woken_partial (W : World) (w w' : Worker) (id : Nat) (v : Val) (hh : w.handle W (.putData id v) = .ok w') :
    ∃ tasks calls : List Request, w'.log = w.log ++ tasks ++ calls ∧ (tasks.map (·.tag)).Sublist (w.pending.map (·.tag)) ∧
      (calls.map (·.tag)).Sublist (w.pendingActor.map (·.tag)) ∧ (w'.pendingActor.map (·.tag)).Sublist (w.pendingActor.map (·.tag)) ∧
      (calls.map (·.tag) ++ w'.pendingActor.map (·.tag)).Perm (w.pendingActor.map (·.tag)) := by
  simp only [Worker.handle] at hh
  split at hh
  · simp at hh
  · rename_i w1 h1
    simp only [Worker.checkTasks] at h1
    split at h1
    · simp at h1
    · rename_i l1 w2 h2
      cases h1
      obtain ⟨ex, e1, e2, -, -, -, e6⟩ := processAll_log _ h2
      simp only [Worker.checkActorTasks] at hh
      split at hh
      · simp at hh
      · rename_i l2 w3 h3
        cases hh
        obtain ⟨ex', f1, f2, f3, f4, -, -⟩ := processAll_log _ h3
        simp only [Worker.put] at e1 e2 e6 f1 f2 f3 f4 ⊢
        rw [e6] at f2 f3 f4
        exact ⟨ex, ex', by rw [f1, e1], e2, f2, f3, f4⟩

/-- Two calls of actor 7 wait for reference 5, one for reference 6. The data of 5 lets the first and the third run, in this order. -/
example : ((Worker.init 2 1).run exCode [.op (.actorCreate 7 (.data 5)), .op (.putOwner 5 3), .op (.putOwner 6 3),
    .op (.actorExecute ⟨0, .fn 0, [.ref 5], [1]⟩ 7 0), .op (.actorExecute ⟨1, .fn 0, [.ref 6], [2]⟩ 7 1),
    .op (.actorExecute ⟨2, .fn 0, [.ref 5], [3]⟩ 7 1), .op (.putData 5 (.data 3))]).toOption.map
      (fun w => (w.log.map (·.tag), w.pendingActor.map (·.tag))) = some ([0, 2], [1]) := by decide +kernel

end Verif.Props
