import Verif.Lemmas.Interrupt
import Verif.Props.Shutdown

/-! Property C134: calls that are interrupted by a signal, and the end of the program. -/
namespace Verif.Props
open Verif.Dispatch Verif.Interrupt

/-- Nothing or everything of the request was sent when the signal arrived. -/
def SentWhole (src block : Nat) (a : Attempt) : Prop := a.sent = 0 ∨ (a.request.messages src block).length ≤ a.sent

/-- A request of the program for a worker. -/
def ProgramRequest (r : Request) : Prop := r.forWorker = true ∧ r ≠ .cancel

/-- The requests of the calls of which something was sent. -/
def begun (as : List Attempt) : List Request := (as.filter fun a => decide (0 < a.sent)).map (·.request)

/-- **C134**, full claim: whatever process `s` has called and wherever signals arrived, and whatever other processes have sent, the
worker can go on until it reads the `CANCEL` of process `s`. -/
def C134_full : Prop :=
  ∀ (block s : Nat) (as : List Attempt) (msgs : List Msg), 0 < block → (∀ a ∈ as, ProgramRequest a.request) →
    msgs.filter (·.src = s) = toWorker s block as →
    ∃ sched got q', workerLoop block false (inboxOf msgs) sched = some (got, q') ∧ (s, .request .cancel) ∈ got

private theorem inbox_src (msgs : List Msg) (s t : Nat) : inboxOf msgs s t = inboxOf (msgs.filter (·.src = s)) s t := by
  unfold inboxOf
  rw [List.filter_filter]
  congr 1
  apply List.filter_congr
  intro m _
  by_cases h1 : m.src = s <;> simp [h1]

private theorem begun_worker {as : List Attempt} (h : ∀ a ∈ as, ProgramRequest a.request) : ∀ r ∈ begun as, ProgramRequest r := by
  intro r hr
  replace hr := List.mem_map.1 hr
  obtain ⟨a, ha, rfl⟩ := hr
  exact h a (List.mem_filter.1 ha).1

/-- What the worker reads of a process whose last request was cut. -/
private theorem worker_cut {block s : Nat} {as : List Attempt} {a : Attempt} {msgs : List Msg} {ops : List Op} (hb : 0 < block)
    (has : ∀ x ∈ as, ProgramRequest x.request ∧ SentWhole s block x) (ha : ProgramRequest a.request) (hcut : ¬ SentWhole s block a)
    (hsent : msgs.filter (·.src = s) = as.flatMap (Attempt.messages s block) ++ (a.messages s block ++ ops.flatMap (sendOperation s)))
    {sched : List Nat} {ready : Bool} {got : List (Nat × Got)} {q' : Inbox}
    (h : workerLoop block ready (inboxOf msgs) sched = some (got, q')) :
    ∃ n, (got.filter (·.1 = s)).map (·.2) = ((begun as).take n).map .request := by
  have hcut' := not_or.1 hcut
  refine workerLoop_cut (ops := ops) hb ha.1 (Nat.pos_of_ne_zero hcut'.1) (Nat.lt_of_not_le hcut'.2) sched
    (fun r hr => (begun_worker (fun x hx => (has x hx).1) r hr).1) (fun t => ?_) h
  rw [inbox_src, hsent, messages_whole s block as fun x hx => (has x hx).2]
  rfl

/-- C134, proved part: if of every call nothing or everything was sent when a signal arrived, the worker reads exactly the requests that were
sent and then the `CANCEL`. Missing: a signal between two messages of a request (`C134_violated`). -/
theorem C134_whole_partial (block s : Nat) (as : List Attempt) (msgs : List Msg) (hb : 0 < block)
    (has : ∀ a ∈ as, ProgramRequest a.request ∧ SentWhole s block a) (hsent : msgs.filter (·.src = s) = toWorker s block as) :
    ∃ got q', workerLoop block false (inboxOf msgs) (List.replicate ((begun as).length + 1) s) = some (got, q') ∧
      got.map (·.2) = (begun as ++ [Request.cancel]).map .request ∧ ∀ g ∈ got, g.1 = s := by
  have hmine : msgs.filter (·.src = s) = (begun as ++ [Request.cancel]).flatMap (Request.messages s block) := by
    rw [hsent, toWorker, messages_whole s block as fun x hx => (has x hx).2, List.flatMap_append]; rfl
  have hq : ∀ t, inboxOf (msgs.filter (·.src = s)) s t = inboxOf msgs s t := fun t => (inbox_src msgs s t).symm
  have key : ∀ (l : List Request) (ready : Bool) (q : Inbox), (∀ r ∈ l, r.forWorker = true) →
      (∀ t, q s t = inboxOf (l.flatMap (Request.messages s block)) s t) →
      ∃ got q', workerLoop block ready q (List.replicate l.length s) = some (got, q') ∧ got.map (·.2) = l.map .request ∧
        ∀ g ∈ got, g.1 = s := by
    intro l
    induction l with
    | nil => exact fun ready q _ _ => ⟨[], q, rfl, rfl, by simp⟩
    | cons r l ih =>
      intro ready q hl hq
      obtain ⟨q1, hr, hleft⟩ := worker_round (q := q) (s := s) (ready := ready) (rest := inboxOf (l.flatMap (Request.messages s block)) s) hb (hl r (by simp))
        (fun t => by rw [hq, List.flatMap_cons, inboxOf_append])
      obtain ⟨got, q', h1, h2, h3⟩ := ih (ready || decide (r = .cancel)) q1 (fun x hx => hl x (by simp [hx])) hleft.1
      refine ⟨(s, .request r) :: got, q', ?_, by simp [h2], ?_⟩
      · simp only [List.length_cons, List.replicate_succ, workerLoop, hr, h1, Option.map_some]
      · intro g hg
        rcases List.mem_cons.1 hg with rfl | hg
        · rfl
        · exact h3 g hg
  have hw : ∀ r ∈ begun as ++ [Request.cancel], r.forWorker = true := by
    intro r hr
    rcases List.mem_append.1 hr with hr | hr
    · exact (begun_worker (fun x hx => (has x hx).1) r hr).1
    · simp only [List.mem_singleton] at hr; subst hr; rfl
  simpa using key (begun as ++ [Request.cancel]) false (inboxOf msgs) hw (fun t => by rw [← hq t, hmine])

/-- Exactly when a program that is ended by a signal ends its workers: the call during which the signal arrived has sent nothing or its whole
request to the worker. Other processes may have sent anything. -/
theorem C134_exactly_partial (block s : Nat) (as : List Attempt) (a : Attempt) (msgs : List Msg) (hb : 0 < block)
    (has : ∀ x ∈ as, ProgramRequest x.request ∧ SentWhole s block x) (ha : ProgramRequest a.request)
    (hsent : msgs.filter (·.src = s) = toWorker s block (as ++ [a])) :
    (∃ sched got q', workerLoop block false (inboxOf msgs) sched = some (got, q') ∧ (s, .request .cancel) ∈ got) ↔
      SentWhole s block a := by
  constructor
  · rintro ⟨sched, got, q', h, hmem⟩
    refine Classical.byContradiction fun hcut => ?_
    obtain ⟨n, hn⟩ := worker_cut (ops := [.cancel]) hb has ha hcut
      (by rw [hsent, toWorker, List.flatMap_append]; simp) h
    have : Got.request .cancel ∈ ((begun as).take n).map Got.request := by
      rw [← hn]
      exact List.mem_map.2 ⟨_, List.mem_filter.2 ⟨hmem, by simp⟩, rfl⟩
    replace this := List.mem_map.1 this
    obtain ⟨r, hr, e⟩ := this
    cases e
    exact (begun_worker (fun x hx => (has x hx).1) _ (List.mem_of_mem_take hr)).2 rfl
  · intro hw
    obtain ⟨got, q', h1, h2, h3⟩ := C134_whole_partial block s (as ++ [a]) msgs hb
      (by
        intro x hx
        rcases List.mem_append.1 hx with hx | hx
        · exact has x hx
        · simp only [List.mem_singleton] at hx; subst hx; exact ⟨ha, hw⟩) hsent
    refine ⟨_, got, q', h1, ?_⟩
    have : Got.request .cancel ∈ got.map (·.2) := by rw [h2]; simp
    replace this := List.mem_map.1 this
    obtain ⟨g, hg, e⟩ := this
    have := h3 g hg
    obtain ⟨x, y⟩ := g
    simp only at this e
    subst this; subst e
    exact hg

/-- A task with one argument buffer is submitted, then a second one; the signal arrives after the operation, the description and the
task, before the buffer. -/
def exCutTask : Attempt := ⟨.execute ⟨[1, 2], [[3]], [1]⟩, 3⟩

/-- C134 is violated: a program that gets a signal while it submits a task does not end its worker. -/
theorem C134_violated : ¬ C134_full := by
  intro h
  have hw := (C134_exactly_partial 10 0 [⟨.execute ⟨[5], [], []⟩, 3⟩] exCutTask
    (toWorker 0 10 ([⟨.execute ⟨[5], [], []⟩, 3⟩] ++ [exCutTask])) (by decide)
    (by
      intro x hx
      simp only [List.mem_singleton] at hx; subst hx
      exact ⟨⟨rfl, by simp⟩, .inr (by decide)⟩)
    ⟨rfl, by simp [exCutTask]⟩ (by decide)).1
    (h 10 0 ([⟨.execute ⟨[5], [], []⟩, 3⟩] ++ [exCutTask]) _ (by decide)
      (by
        intro x hx
        simp only [List.cons_append, List.nil_append, List.mem_cons, List.not_mem_nil, or_false] at hx
        rcases hx with rfl | rfl
        · exact ⟨rfl, by simp⟩
        · exact ⟨rfl, by simp [exCutTask]⟩) (by decide))
  rcases hw with h0 | h1
  · exact absurd h0 (by decide)
  · exact absurd h1 (by decide)

-- the worker reads the first task, then waits
example : (workerLoop 10 false (inboxOf (toWorker 0 10 [⟨.execute ⟨[5], [], []⟩, 3⟩, exCutTask])) [0]).map (·.1) =
      some [(0, .request (.execute ⟨[5], [], []⟩))] ∧
    (workerLoop 10 false (inboxOf (toWorker 0 10 [⟨.execute ⟨[5], [], []⟩, 3⟩, exCutTask])) [0, 0]).map (·.1) = none := by decide

/-- C134 is violated for monitors too: after a request that was cut the monitor reads nothing more of the process, and whatever other
processes send, its loop does not get past the request. -/
theorem C134_monitor_violated (block s : Nat) (rs : List Request) (c : Request) (k : Nat) (msgs : List Msg) (ops : List Op) (hb : 0 < block)
    (hrs : ∀ r ∈ rs, r.forMonitor = true) (hc : c.forMonitor = true) (h0 : 0 < k) (hk : k < (c.messages s block).length)
    (hsent : msgs.filter (·.src = s) = rs.flatMap (Request.messages s block) ++
      (Attempt.messages s block ⟨c, k⟩ ++ ops.flatMap (sendOperation s)))
    (sched : List Nat) (got : List (Nat × Got)) (q' : Inbox) (h : monitorLoop block (inboxOf msgs) sched = some (got, q')) :
    (∃ n, (got.filter (·.1 = s)).map (·.2) = (rs.take n).map .request) ∧ (got.map (·.1) = sched → sched.count s ≤ rs.length) := by
  obtain ⟨n, hn⟩ := monitorLoop_cut (ops := ops) hb hc h0 hk sched hrs (fun t => by rw [inbox_src, hsent]; rfl) h
  refine ⟨⟨n, hn⟩, fun e => ?_⟩
  have hlen := congrArg List.length hn
  simp only [List.length_map, List.length_take] at hlen
  have : sched.count s = (got.filter (·.1 = s)).length := by
    rw [← e, List.count_eq_countP, List.countP_map, List.countP_eq_length_filter]
    congr 2
  omega

-- the root is interrupted while it asks for finished tasks; the reports of the workers are not read any more
example : (monitorLoop 4 (inboxOf ((Request.taskDone [5]).messages 2 4 ++ Attempt.messages 0 4 ⟨.wait [6], 1⟩ ++
      (Request.taskDone [6]).messages 2 4)) [2, 2]).map (·.1) = some [(2, .request (.taskDone [5])), (2, .request (.taskDone [6]))] ∧
    (monitorLoop 4 (inboxOf ((Request.taskDone [5]).messages 2 4 ++ Attempt.messages 0 4 ⟨.wait [6], 1⟩ ++
      (Request.taskDone [6]).messages 2 4)) [2, 0, 2]).map (·.1) = none := by decide

/-- If the program catches the exception and goes on, the worker takes the data of a later request for the missing data: here it runs the
method call as a task. -/
theorem C134_other_data_violated (block : Nat) (ready : Bool) (d e : Data) (k : Nat) 
    (hk : ((Request.actorExecute e).messages 0 block).length ≤ k) :
    ∃ q', workerReads block ready (inboxOf (toWorker 0 block [⟨.execute d, 1⟩, ⟨.actorExecute e, k⟩])) 0 =
      some (.request (.execute e), q') := by
  have hm : Attempt.messages 0 block ⟨.actorExecute e, k⟩ = (Request.actorExecute e).messages 0 block := List.take_of_length_le hk
  let i : Info := ⟨.taskData, none, e.sData.length, e.rawBuffers.map List.length, e.bufferCount, none⟩
  have hq : ∀ t, inboxOf (toWorker 0 block [⟨.execute d, 1⟩, ⟨.actorExecute e, k⟩]) 0 t =
      inboxOf (sendOperation 0 .execute ++ sendData 0 i e) 0 t ++
        (if t = tagOperation then [.op Op.actorExecute.code, .op Op.cancel.code] else []) := by
    intro t
    have e1 : toWorker 0 block [⟨.execute d, 1⟩, ⟨.actorExecute e, k⟩] =
        sendOperation 0 .execute ++ (sendOperation 0 .actorExecute ++ sendData 0 i e) ++ sendOperation 0 .cancel := by
      simp only [toWorker, List.flatMap_cons, List.flatMap_nil, List.append_nil, hm]
      rfl
    rw [e1]
    simp only [inboxOf_append, inboxOf_sendData]
    by_cases h : t = tagOperation
    · subst h
      simp [sendOperation, inboxOf_cons, inboxOf_nil, tagOperation, tagObject, tagBuffer]
    · have : ∀ o, inboxOf (sendOperation 0 o) 0 t = [] := fun o => by
        simpa [sendOperation, inboxOf_cons, inboxOf_nil] using fun e : tagOperation = t => h e.symm
      simp [this, h]
  obtain ⟨q1, a1, a2, a3⟩ := (front_data hq).takeOp
  obtain ⟨q2, b1, b2⟩ := pullTask_spec .execute a2
  exact ⟨q2, by simp only [workerReads, a1]; exact b1⟩

/-- A worker that never reads the `CANCEL` keeps `shutdown` from returning: the program does not end. -/
theorem C134_program_violated (c : Shutdown.Cfg) (hc : Roles c) (w : Nat) (hw : w ∈ c.workers) (acts : List Shutdown.Act)
    (hi : Shutdown.Act.interrupt ∉ acts) (hn : ∀ m : Shutdown.Msg, .deliver m ∈ acts → ¬ (m.dst = w ∧ m.kind = .cancel))
    (s : Shutdown.State) (hr : Shutdown.run c .init acts = some s) : s.root ≠ .done := by
  have key : ∀ (acts : List Shutdown.Act) (s s' : Shutdown.State),
      (∀ m : Shutdown.Msg, .deliver m ∈ acts → ¬ (m.dst = w ∧ m.kind = .cancel)) →
      (s.worker w = .running ∨ s.worker w = .crashed) → Shutdown.run c s acts = some s' →
      s'.worker w = .running ∨ s'.worker w = .crashed := by
    intro acts
    induction acts with
    | nil => intro s s' _ h e; cases e; exact h
    | cons a l ih =>
      intro s s' hn h e
      simp only [Shutdown.run, Option.bind_eq_some_iff] at e
      obtain ⟨t, ht, e⟩ := e
      refine ih t s' (fun m hm => hn m (by simp [hm])) ?_ e
      cases a with
      | deliver m =>
        have hm := hn m (by simp)
        simp only [Shutdown.step] at ht
        split at ht
        · split at ht
          · simp only [Shutdown.recvRoot] at ht
            split at ht <;> cases ht
            exact h
          · split at ht
            · simp only [Shutdown.recvMonitor] at ht
              repeat' split at ht
              all_goals first | cases ht | skip
              all_goals exact h
            · simp only [Shutdown.recvWorker] at ht
              by_cases hd : m.dst = w
              · subst hd
                rcases h with h | h <;> rw [h] at ht <;> cases hk : m.kind <;> rw [hk] at ht <;> dsimp only at ht <;>
                  first
                  | exact absurd (And.intro rfl hk) hm
                  | (cases ht; exact .inl h)
                  | (cases ht; exact .inr (by simp [Shutdown.upd]))
                  | cases ht
              · repeat' split at ht
                all_goals first | cases ht | skip
                all_goals simpa [Shutdown.upd, Ne.symm hd] using h
        · cases ht
      | finished x =>
        simp only [Shutdown.step] at ht
        split at ht
        · rename_i hx
          cases ht
          by_cases hd : x = w
          · subst hd; rw [hx.2.1] at h; simp at h
          · simpa [Shutdown.upd, Ne.symm hd] using h
        · cases ht
      | _ =>
        simp only [Shutdown.step] at ht
        repeat' split at ht
        all_goals first | cases ht | skip
        all_goals exact h
  intro hd
  have h1 := key acts _ s hn (.inl rfl) hr
  rcases (C50_root_last c hc (List.ne_nil_of_mem hw) acts hi s hr hd).1 w hw with h | ⟨h, -⟩ <;> rw [h] at h1 <;> simp at h1

-- two workers; worker 3 does not read its `CANCEL`
example : (Shutdown.run ⟨[2, 3], [1], 1⟩ .init [.shutdown, .cancelNext, .cancelNext, .cancelNext, .deliver ⟨0, 2, .cancel⟩, .finished 2,
      .deliver ⟨2, 1, .ready⟩]).map (fun s => (s.root, s.worker 2, s.worker 3)) = some (.waiting, .ready, .running) := by decide +kernel

end Verif.Props
