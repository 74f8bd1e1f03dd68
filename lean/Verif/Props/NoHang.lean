import Verif.Lemmas.LifetimeFlip
import Verif.Props.Lifetime

/-! Properties of the object lifetime model (`Verif.Model.Lifetime`): programs do not hang. -/
namespace Verif.Props
open Verif.Lifetime

/-! ## C98 programs do not hang, whatever is cleaned up -/

/-- C98: in every history, only so many messages and reports can arrive while the program does nothing; when no more can
arrive, no `get` waits, every task and method call has been executed, and all executions have been counted, so that the next
cleanup can take place. -/
def C98_full : Prop :=
  ∀ (ws : List Nat) (ops : List Op) (s : Sys), 0 ∉ ws → ws.Nodup → (Sys.init ws).run ops = some s →
    (∃ N, ∀ ds s', (∀ op ∈ ds, Arrives op) → s.run ds = some s' → ds.length ≤ N) ∧
    ∀ ds s', (∀ op ∈ ds, Arrives op) → s.run ds = some s' → (∀ op, Arrives op → s'.step op = none) →
      s'.waiting = [] ∧ (∀ w t, ¬ Unfinished s' w t) ∧ s'.executed = s'.submitted

/-- C98 is violated: the argument of a method call is cleaned up before it arrives, the method never runs and the `get` of its
result waits forever. -/
theorem C98_method_violated : ¬ C98_full := by
  intro h
  obtain ⟨s, hr, hs⟩ := Option.map_eq_some_iff.1 (show ((Sys.init [1, 2]).run (exMethodLost ++ [.get [1], .deliver 0 2, .deliver 0 2, .deliver 0 2, .deliver 0 2, .deliver 2 1])).map (fun s => (s.net, s.waiting, s.reports)) =
    some ([], [1], 0) by decide +kernel)
  simp only [Prod.mk.injEq] at hs
  obtain ⟨e1, e2, e3⟩ := hs
  have := ((h [1, 2] _ s (by simp) (by decide) hr).2 [] s (by simp) rfl (by
    rintro op (⟨x, y, rfl⟩ | rfl)
    · simp [Sys.step, e1, takeMsg]
    · simp [Sys.step, e3])).1
  rw [e2] at this
  cases this

/-- C98 is violated: `get` of a list that names a reference twice waits forever, as the value is sent once. -/
theorem C98_get_twice_violated : ¬ C98_full := by
  intro h
  obtain ⟨s, hr, hs⟩ := Option.map_eq_some_iff.1 (show ((Sys.init [1]).run [.submit [] 1 1 false, .get [0, 0], .deliver 0 1, .deliver 0 1, .deliver 0 1, .deliver 1 0, .report]).map (fun s => (s.net, s.waiting, s.reports)) =
    some ([], [0], 0) by decide +kernel)
  simp only [Prod.mk.injEq] at hs
  obtain ⟨e1, e2, e3⟩ := hs
  have := ((h [1] _ s (by simp) (by decide) hr).2 [] s (by simp) rfl (by
    rintro op (⟨x, y, rfl⟩ | rfl)
    · simp [Sys.step, e1, takeMsg]
    · simp [Sys.step, e3])).1
  rw [e2] at this
  cases this

/-- A method of an actor on worker 2 waits for an argument from worker 1; the handle of the actor is gone, and a task that needs
the result of the method is sent to worker 2. When the argument arrives the worker looks at its tasks before its methods. -/
def exTaskBehind : List Op :=
  [.submit [] 1 1 false, .submit [0] 1 2 true, .submit [1] 1 2 false, .deliver 0 2, .deliver 0 2, .deliver 0 2, .deliver 0 2, .deliver 0 1, .deliver 2 1, .deliver 1 2,
    .report, .report, .get [2], .deliver 0 2]

/-- C98 is violated even by programs that drop nothing: a task that waits for the result of a method on the same worker is not
looked at when the method has run. -/
theorem C98_task_behind_method_violated :
    ¬ ∀ (ws : List Nat) (ops : List Op) (s : Sys), 0 ∉ ws → ws.Nodup → GetsOnce ops → (∀ i, Op.drop i ∉ ops) → Op.cleanup ∉ ops → (Sys.init ws).run ops = some s →
      ∀ ds s', (∀ op ∈ ds, Arrives op) → s.run ds = some s' → (∀ op, Arrives op → s'.step op = none) → s'.waiting = [] := by
  intro h
  obtain ⟨s, hr, hs⟩ := Option.map_eq_some_iff.1 (show ((Sys.init [1, 2]).run exTaskBehind).map (fun s => (s.net, s.waiting, s.reports)) =
    some ([], [2], 0) by decide +kernel)
  simp only [Prod.mk.injEq] at hs
  obtain ⟨e1, e2, e3⟩ := hs
  have := h [1, 2] exTaskBehind s (by simp) (by decide) (by intro ids hx; simp [exTaskBehind] at hx; simp [hx]) (by simp [exTaskBehind]) (by simp [exTaskBehind]) hr
    [] s (by simp) rfl (by
      rintro op (⟨x, y, rfl⟩ | rfl)
      · simp [Sys.step, e1, takeMsg]
      · simp [Sys.step, e3])
  rw [e2] at this
  cases this

set_option synthInstance.maxSize 1000 in
example : ((Sys.init [1, 2]).run exTaskBehind).map (fun s => (s.net, s.waiting, (s.worker 2).data, (s.worker 2).tasks, (s.worker 2).methods)) =
    some ([], [2], [1, 0], [⟨[1], [2], false⟩], []) := by decide +kernel

/-- C98, as far as it holds: without actor method calls, if no `get` names a reference twice. -/
theorem C98_no_hang_partial (ws : List Nat) (ops : List Op) (s : Sys) (h0 : 0 ∉ ws) (hn : ws.Nodup) (hm : NoMethods ops) (hg : GetsOnce ops)
    (hr : (Sys.init ws).run ops = some s) :
    (∃ N, ∀ ds s', (∀ op ∈ ds, Arrives op) → s.run ds = some s' → ds.length ≤ N) ∧
    ∀ ds s', (∀ op ∈ ds, Arrives op) → s.run ds = some s' → (∀ op, Arrives op → s'.step op = none) →
      s'.waiting = [] ∧ (∀ w t, ¬ Unfinished s' w t) ∧ s'.executed = s'.submitted := by
  obtain ⟨i, l, c⟩ := closed_run ops (inv_init ws h0 hn) (live_init ws) (closed_init ws) hm hg hr
  refine ⟨⟨total (open_ s) s, ?_⟩, ?_⟩
  · intro ds s' ha h
    have := (arrive_run ds ha i l c h).2.2
    omega
  · intro ds s' ha h hend
    obtain ⟨i', l', -⟩ := arrive_run ds ha i l c h
    have hnet := can_deliver i' l' (fun x y => hend _ (Or.inl ⟨x, y, rfl⟩))
    obtain ⟨ht, hw⟩ := live_quiet i' l' hnet
    refine ⟨hw, ?_, ?_⟩
    · intro w t hu
      rcases hu with g | g | g
      · rw [hnet] at g; cases g
      · rw [ht] at g; cases g
      · rw [(i'.idle w).1] at g; cases g
    · have hrep : s'.reports = 0 := by
        have := hend .report (Or.inr rfl)
        simp only [Sys.step] at this
        split at this
        · assumption
        · cases this
      have := i'.count
      simp only [hrep, hnet, ht, List.countP_nil, List.length_nil] at this
      have hz : ∀ l : List Nat, (l.map fun _ => 0).sum = 0 := by intro l; induction l <;> simp_all
      rw [hz] at this
      omega

/-- C98, the good end is reached: without actor method calls, if no `get` names a reference twice, every waiting `get` returns
and every task runs once enough has arrived. -/
theorem C98_returns_partial (ws : List Nat) (ops : List Op) (s : Sys) (h0 : 0 ∉ ws) (hn : ws.Nodup) (hm : NoMethods ops) (hg : GetsOnce ops)
    (hr : (Sys.init ws).run ops = some s) :
    ∃ ds s', (∀ op ∈ ds, Arrives op) ∧ s.run ds = some s' ∧ s'.waiting = [] ∧ (∀ w t, ¬ Unfinished s' w t) ∧ s'.executed = s'.submitted := by
  obtain ⟨i, l, c⟩ := closed_run ops (inv_init ws h0 hn) (live_init ws) (closed_init ws) hm hg hr
  obtain ⟨ds, s', h1, h2, h3⟩ := arrive_end i l c
  exact ⟨ds, s', h1, h2, (C98_no_hang_partial ws ops s h0 hn hm hg hr).2 ds s' h1 h2 h3⟩

/-- A chain of tasks on two workers, a cleanup in the middle, and a `get` of the end of the chain. -/
def exChainHist : List Op :=
  [.submit [] 1 1 false, .deliver 0 1, .report, .submit [0] 1 2 false, .deliver 0 2, .deliver 0 2, .deliver 2 1, .deliver 1 2, .report, .drop 0, .cleanup,
    .submit [1] 1 1 false, .get [2]]

example : NoMethods exChainHist ∧ GetsOnce exChainHist := by
  refine ⟨?_, ?_⟩
  · intro a n d; simp [exChainHist]
  · intro ids h
    simp [exChainHist] at h
    subst h
    simp

example : ((Sys.init [1, 2]).run exChainHist).map (fun s => (s.waiting, s.cleaned, s.net)) =
    some ([2], [0], [(0, 1, .clean [0]), (0, 2, .clean [0]), (0, 1, .owner 1 2), (0, 1, .task ⟨[1], [2], false⟩), (0, 1, .ask 2 0)]) := by decide +kernel

set_option synthInstance.maxSize 1000 in
example : ((Sys.init [1, 2]).run (exChainHist ++ [.deliver 0 1, .deliver 0 1, .deliver 0 1, .deliver 0 1, .deliver 0 2, .deliver 1 2, .deliver 2 1, .deliver 1 0, .report])).map
    (fun s => (s.waiting, s.net, s.submitted, s.executed, (s.worker 1).data)) = some ([], [], 3, 3, [2, 1]) := by decide +kernel

/-- C98 with actors, as far as it holds: if the program keeps its references to the arguments of calls until they are finished, sends
no task to a worker on which a method call is unfinished, and names no reference twice in a `get`, then only so much can arrive;
when no more can arrive, no `get` waits, every task and method call has been executed, and each has been counted once. -/
theorem C98_actors_partial (ws : List Nat) (ops : List Op) (s : Sys) (h0 : 0 ∉ ws) (hn : ws.Nodup) (hk : KeepsArguments (Sys.init ws) ops)
    (ha : ActorsAlone (Sys.init ws) ops) (hg : GetsOnce ops) (hr : (Sys.init ws).run ops = some s) :
    (∃ N, ∀ ds s', (∀ op ∈ ds, Arrives op) → s.run ds = some s' → ds.length ≤ N) ∧
    ∀ ds s', (∀ op ∈ ds, Arrives op) → s.run ds = some s' → (∀ op, Arrives op → s'.step op = none) →
      s'.waiting = [] ∧ (∀ w t, ¬ Unfinished s' w t) ∧ s'.executed = callCount ops := by
  have g := good_run ops (good_init ws h0 hn) hg hk ha hr
  rw [Nat.zero_add] at g
  generalize callCount ops = k at g ⊢
  refine ⟨⟨total (open_ (fl s k)) (fl s k), ?_⟩, ?_⟩
  · intro ds s' hd h
    have := (arrive_run ds hd g.inv g.live g.closed (arrive_good_run ds hd g h).2).2.2
    omega
  · intro ds s' hd h hend
    obtain ⟨g', -⟩ := arrive_good_run ds hd g h
    have hnet := can_deliver g'.inv g'.live (fun x y => arrive_none (Or.inl ⟨x, y, rfl⟩) (hend _ (Or.inl ⟨x, y, rfl⟩)))
    obtain ⟨ht, hw⟩ := live_quiet g'.inv g'.live hnet
    have hn' : s'.net = [] := List.map_eq_nil_iff.1 hnet
    have hp : ∀ w, (s'.worker w).tasks = [] ∧ (s'.worker w).methods = [] := fun w => List.append_eq_nil_iff.1 (List.map_eq_nil_iff.1 (ht w))
    refine ⟨hw, ?_, ?_⟩
    · intro w t hu
      rcases hu with g | g | g
      · rw [hn'] at g; cases g
      · rw [(hp w).1] at g; cases g
      · rw [(hp w).2] at g; cases g
    · have hrep : s'.reports = 0 := by
        have := hend .report (Or.inr rfl)
        simp only [Sys.step] at this
        split at this
        · assumption
        · cases this
      have hc := g'.inv.count
      have hrep' : (fl s' k).reports = 0 := hrep
      simp only [hrep', hnet, ht, List.countP_nil, List.length_nil] at hc
      have hz : ∀ l : List Nat, (l.map fun _ => 0).sum = 0 := by intro l; induction l <;> simp_all
      rw [hz] at hc
      have hc : k = s'.executed + 0 + 0 + 0 := hc
      omega

/-- C98 with actors, the good end is reached: under the same conditions every waiting `get` returns and every task and method call
runs once enough has arrived. -/
theorem C98_actors_return_partial (ws : List Nat) (ops : List Op) (s : Sys) (h0 : 0 ∉ ws) (hn : ws.Nodup) (hk : KeepsArguments (Sys.init ws) ops)
    (ha : ActorsAlone (Sys.init ws) ops) (hg : GetsOnce ops) (hr : (Sys.init ws).run ops = some s) :
    ∃ ds s', (∀ op ∈ ds, Arrives op) ∧ s.run ds = some s' ∧ s'.waiting = [] ∧ (∀ w t, ¬ Unfinished s' w t) ∧ s'.executed = callCount ops := by
  have h := C98_actors_partial ws ops s h0 hn hk ha hg hr
  obtain ⟨N, hN⟩ := h.1
  have hex : ∀ n (ds : List Op) (s1 : Sys), N + 1 - ds.length = n → (∀ op ∈ ds, Arrives op) → s.run ds = some s1 →
      ∃ ds s', (∀ op ∈ ds, Arrives op) ∧ s.run ds = some s' ∧ ∀ op, Arrives op → s'.step op = none := by
    intro n
    induction n with
    | zero =>
      intro ds s1 e h1 h2
      have := hN ds s1 h1 h2
      omega
    | succ n ih =>
      intro ds s1 e h1 h2
      by_cases hx : ∀ op, Arrives op → s1.step op = none
      · exact ⟨ds, s1, h1, h2, hx⟩
      · obtain ⟨op, hx⟩ := Classical.not_forall.1 hx
        obtain ⟨hop, hx⟩ := Classical.not_imp.1 hx
        obtain ⟨s2, hs2⟩ := Option.ne_none_iff_exists'.1 hx
        refine ih (ds ++ [op]) s2 (by simp; omega) ?_ ?_
        · intro o ho
          rcases List.mem_append.1 ho with g | g
          · exact h1 o g
          · rw [List.mem_singleton.1 g]; exact hop
        · have : ∀ (l : List Op) (a b c : Sys), a.run l = some b → b.step op = some c → a.run (l ++ [op]) = some c := by
            intro l
            induction l with
            | nil => intro a b c e1 e2; cases e1; simp [Sys.run, e2]
            | cons x l ih =>
              intro a b c e1 e2
              simp only [Sys.run, Option.bind_eq_some_iff, List.cons_append] at e1 ⊢
              obtain ⟨m, k1, k2⟩ := e1
              exact ⟨m, k1, ih m b c k2 e2⟩
          exact this ds s s1 s2 h2 hs2
  obtain ⟨ds, s', h1, h2, h3⟩ := hex _ [] s rfl (by simp) rfl
  exact ⟨ds, s', h1, h2, h.2 ds s' h1 h2 h3⟩

/-- `ActorsAlone`, computed. -/
def aloneB : Sys → List Op → Bool
  | _, [] => true
  | s, op :: ops =>
    (match op with
      | .submit _ _ d false => s.net.all (fun x => match x with | (_, e, .task t) => e != d || !t.method | _ => true) && ((s.worker d).tasks ++ (s.worker d).methods).all (fun t => !t.method)
      | _ => true) &&
    match s.step op with | none => true | some s' => aloneB s' ops

theorem alone_of (ops : List Op) {s : Sys} (h : aloneB s ops = true) : ActorsAlone s ops := by
  induction ops generalizing s with
  | nil => trivial
  | cons op ops ih =>
    simp only [aloneB, Bool.and_eq_true] at h
    refine ⟨?_, ?_⟩
    · rintro args n d rfl t ht hu
      obtain ⟨h1, h2⟩ := Bool.and_eq_true_iff.1 h.1
      rw [List.all_eq_true] at h1 h2
      have hm : t ∈ (s.worker d).tasks ++ (s.worker d).methods → False := fun g => by
        have := h2 t g
        simp [ht] at this
      rcases hu with g | g | g
      · have := h1 _ g
        simp [ht] at this
      · exact hm (List.mem_append_left _ g)
      · exact hm (List.mem_append_right _ g)
    · intro s' e
      have := h.2
      rw [e] at this
      exact ih this

/-- An actor on worker 2 that is called with results of tasks on worker 1 and the other way round; the first result is dropped and cleaned up in
the meantime. -/
def exActorChain : List Op :=
  [.submit [] 1 1 false, .submit [0] 1 2 true, .deliver 0 1, .report, .deliver 0 2, .deliver 0 2, .deliver 2 1, .deliver 1 2, .drop 0, .cleanup,
    .submit [1] 1 1 false, .submit [1, 2] 1 2 true, .submit [3] 1 2 true, .get [4]]

set_option synthInstance.maxSize 1000 in
example : KeepsArguments (Sys.init [1, 2]) exActorChain ∧ ActorsAlone (Sys.init [1, 2]) exActorChain ∧ GetsOnce exActorChain ∧
    ((Sys.init [1, 2]).run exActorChain).map (fun s => (s.waiting, s.cleaned, s.submitted, s.executed, s.reports)) = some ([4], [0], 2, 1, 1) := by
  refine ⟨keeps_of _ (kept_init [1, 2] (by simp) (by decide)) (by decide +kernel), alone_of _ (by decide +kernel), ?_, by decide +kernel⟩
  intro ids h
  simp [exActorChain] at h
  subst h
  simp

set_option synthInstance.maxSize 1000 in
example : ((Sys.init [1, 2]).run (exActorChain ++ [.deliver 0 1, .deliver 0 1, .deliver 0 1, .deliver 0 2, .deliver 0 2, .deliver 0 2, .deliver 0 2, .deliver 0 2, .deliver 0 2, .deliver 0 2, .deliver 1 2, .deliver 2 1, .deliver 2 1,
    .deliver 1 2, .deliver 2 0, .report, .report, .report, .report])).map (fun s => (s.waiting, s.executed, callCount exActorChain)) = some ([], 5, 5) := by decide +kernel

/-- The program of the violation sends a task to a worker with an unfinished method call. -/
example : aloneB (Sys.init [1, 2]) exTaskBehind = false := by decide +kernel

end Verif.Props
