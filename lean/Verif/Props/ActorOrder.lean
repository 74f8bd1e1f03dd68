import Verif.Lemmas.WorkerSerial
import Verif.Lemmas.Decide
import Verif.Props.ActorBackends

/-! An actor on a worker of the MPI backend does what a local object does, in some order (C132). -/
namespace Verif.Props
open Verif.Worker Verif.Spec

/-- The references that an operation, once it is executed, gives a value to. -/
def givesValue : Worker.Event → List Nat
  | .op (.execute r) => r.outs
  | .op (.actorExecute r _ _) => r.outs
  | .op (.putData id _) => [id]
  | _ => []

/-- Whether a request calls a method of the actor. -/
def callOfActor (h : Nat) (r : Request) : Bool :=
  match r.task with
  | .method k _ => k == h
  | .fn _ => false

private theorem filterMap_calls (h : Nat) (es : List Worker.Event) : es.filterMap (methodCall h) = es.flatMap (callsTo h) := by
  induction es with
  | nil => rfl
  | cons e l ih =>
    rw [List.filterMap_cons, List.flatMap_cons, ih]
    cases e with
    | complete i => rfl
    | op m =>
      cases m <;> try rfl
      rename_i r k n
      simp only [methodCall, callsTo]
      by_cases hk : k = h <;> simp [hk]

private theorem run_append (W : World) : ∀ (a b : List Worker.Event) (w w' : Worker), w.run W (a ++ b) = .ok w' →
    ∃ w1, w.run W a = .ok w1 ∧ w1.run W b = .ok w'
  | [], b, w, w', h => ⟨w, rfl, h⟩
  | .op m :: a, b, w, w', h => by
      simp only [List.cons_append, Worker.run] at h ⊢
      split at h
      · simp at h
      · rename_i w1 h1
        exact run_append W a b w1 w' h
  | .complete i :: a, b, w, w', h => by
      simp only [List.cons_append, Worker.run] at h ⊢
      exact run_append W a b _ w' h

/-- C132: whatever a worker is asked to do, in whatever order the arguments arrive, an actor does what a local object does when its methods are
called once for each call that was executed, one after the other in the order of execution, with the values of the references; its state
is that of the local object, the results of the calls are the values of their references, and the calls that were not executed are those
the worker still holds back. -/
theorem C132_local_object (W : World) (rank monitor h : Nat) (st : Val) (pre post : List Worker.Event) (w : Worker)
    (hrun : (Worker.init rank monitor).run W (pre ++ .op (.actorCreate h st) :: post) = .ok w)
    (hone : ∀ s', Worker.Event.op (.actorCreate h s') ∉ pre ++ post)
    (htask : ∀ r, Worker.Event.op (.execute r) ∈ pre ++ post → ∃ f, r.task = .fn f)
    (hsync : ∀ r n, Worker.Event.op (.actorExecute r h n) ∈ pre ++ post → W.isAsync n = false)
    (honce : ((pre ++ post).flatMap givesValue).Nodup)
    (hcall : ∀ f args v, refsList args = [] → W.call f args = .ret v → refs v = [])
    (hmeth : ∀ f s args v, refsList args = [] → (W.method f s args).2 = .ret v → refs v = [])
    (hput : ∀ id v, Worker.Event.op (.putData id v) ∈ pre ++ post → refs v = []) :
    ∃ order waiting : List (Request × Nat),
      (order ++ waiting).Perm (post.filterMap (methodCall h)) ∧
      (w.log.filter (callOfActor h)).map (·.tag) = order.map (·.1.tag) ∧
      (waiting.map (·.1.tag)).Perm (((w.pending ++ w.pendingActor).filter (callOfActor h)).map (·.tag)) ∧
      (∀ q ∈ order, ∀ i ∈ refsList q.1.args, w.store i ≠ none) ∧
      w.actors h = some (localCalls W st (order.map fun q => (q.2, substList w.store q.1.args))).1 ∧
      ∀ (k : Nat) (q : Request × Nat) (r : Ret), order[k]? = some q →
        (localCalls W st (order.map fun q => (q.2, substList w.store q.1.args))).2[k]? = some r →
        ∀ p ∈ outputValues q.1.outs r, w.store p.1 = some p.2 := by
  have hW : NoRefs W := ⟨hcall, hmeth⟩
  have hg : ∀ l : List Worker.Event, l.flatMap givesValue = l.flatMap writesOf := by
    intro l
    refine List.flatMap_congr (fun e _ => ?_)
    cases e with
    | complete i => rfl
    | op m => cases m <;> rfl
  have hmild : ∀ e ∈ pre ++ post, Mild W h e := by
    intro e he
    cases e with
    | complete i => trivial
    | op m =>
      cases m with
      | execute r => exact htask r he
      | actorCreate k v => exact fun hk => hone v (hk ▸ he)
      | actorExecute r k n => exact fun hk => hsync r n (hk ▸ he)
      | putData id v => exact hput id v he
      | _ => trivial
  have hco : callOfActor h = ofActor h := rfl
  obtain ⟨w1, h1, h2⟩ := run_append W pre _ _ _ hrun
  rw [hg, List.flatMap_append] at honce
  have s0 : Serial W h none [] (pre.flatMap writesOf ++ post.flatMap writesOf) (Worker.init rank monitor) := by
    refine ⟨fun i v hv => (by cases hv), by simp [Worker.init], by simpa [Worker.init] using honce, fun i _ => rfl, [], [], ?_⟩
    exact ⟨fun _ => rfl, .refl _, by simp [Worker.init], by simp, rfl, by simp, rfl, by simp⟩
  have s1 := Serial.run hW pre (fun e he => hmild e (List.mem_append_left _ he)) s0 h1
  have hpre : [] ++ pre.flatMap (callsTo h) = [] := by
    obtain ⟨order, kept, t⟩ := s1.split
    exact t.empty rfl
  rw [hpre] at s1
  simp only [Worker.run, Worker.handle] at h2
  have s2 : Serial W h (some st) [] (post.flatMap writesOf ++ []) { w1 with actors := upd w1.actors h st } := by
    rw [List.append_nil]
    obtain ⟨order, kept, t⟩ := s1.split
    have ho : order = [] ∧ kept.map (·.1) = [] := by
      have := t.perm.eq_nil
      exact List.append_eq_nil_iff.1 this
    obtain ⟨rfl, hk⟩ := ho
    exact ⟨s1.closed, s1.coro, s1.nodup, s1.fresh, [], kept, by simp, t.perm, t.held, t.waits, t.ran, t.avail, by simp [upd, localCalls], by simp⟩
  have s3 := Serial.run hW post (fun e he => hmild e (List.mem_append_right _ he)) s2 h2
  obtain ⟨order, kept, t⟩ := s3.split
  refine ⟨order, kept.map (·.1), ?_, ?_, ?_, t.avail, t.state, ?_⟩
  · rw [filterMap_calls]; simpa using t.perm
  · rw [hco, t.ran, List.map_map]; rfl
  · rw [hco]
    have := t.held.map (·.tag)
    rw [List.map_map] at this ⊢
    refine List.Perm.trans (List.Perm.of_eq (List.map_congr_left fun x hx => ?_)) this
    exact (t.waits x hx).tag.symm
  · intro k q r hq hr
    refine t.results st rfl (q, r) ?_
    refine List.mem_of_getElem? (i := k) ?_
    rw [List.getElem?_zip_eq_some]
    exact ⟨hq, hr⟩

/-- The call that came first waits for its argument and runs second. The worker also runs a coroutine task. -/
def exLateCall : List Worker.Event :=
  [.op (.putOwner 5 3), .op (.putData 20 (.code 9)), .op (.execute ⟨0, .fn 20, [], [30]⟩), .op (.actorExecute ⟨1, .fn 0, [.ref 5], [1]⟩ 7 0),
   .op (.actorExecute ⟨2, .fn 0, [], [2]⟩ 7 1), .complete 0, .op (.putData 5 (.data 3)), .op (.actorExecute ⟨3, .fn 0, [.list [.ref 1]], [4]⟩ 7 0)]

example : ((Worker.init 2 1).run exCode ([] ++ .op (.actorCreate 7 (.data 5)) :: exLateCall)).toOption.map
      (fun w => ((w.log.filter (callOfActor 7)).map (·.tag), w.actors 7, w.store 1, w.store 2, w.store 4)) =
        some ([2, 1, 3], some (.data 12), some (.data 10), some (.data 5), some (.data 11)) ∧
    (([] ++ exLateCall).flatMap givesValue).Nodup ∧
    ((localCalls exCode (.data 5) [(1, []), (0, [.data 3]), (0, [.list [.data 10]])]).1,
      (localCalls exCode (.data 5) [(1, []), (0, [.data 3]), (0, [.list [.data 10]])]).2.map fun | .ret v => some v | .raise _ => none) =
      (.data 12, [some (.data 5), some (.data 10), some (.data 11)]) := by decide +kernel

end Verif.Props
