import Verif.Lemmas.ActorBackends
import Verif.Props.Backends
import Verif.Props.Worker

/-! # C131 Actors behave like local objects on every backend -/
namespace Verif.Props
open Verif.Backends Verif.Spec.Backends
open Verif.ActorBackends (actorWorld stateAfter)

/-- C131 as stated for the multiprocessing backend: when the workers have finished, every reference gives what the calls made directly give. -/
def C131_pymp_full : Prop :=
  ∀ (F : Spec.Actors.Code) (P : List Spec.Actors.Call), Spec.Actors.Formed F 0 0 P →
    ∀ n acts s, 0 < n → acts.filter pympMain = P.map (ActorBackends.pympAct F) → Pymp.run (actorWorld F) (Pymp.State.init n) acts = some s →
      (∀ a, pympMain a = false → Pymp.step (actorWorld F) s a = none) →
      ∀ i, (Pymp.getOne (actorWorld F) s i).map objRes = (Spec.Actors.directly F ⟨[], []⟩ P).env[i]?

/-- C131 as stated for the sequential backend: no call raises, and every reference gives what the calls made directly give. -/
def C131_pyseq_full : Prop :=
  ∀ (F : Spec.Actors.Code) (P : List Spec.Actors.Call), Spec.Actors.Formed F 0 0 P →
    ∃ s os, Pyseq.run (actorWorld F) Pyseq.State.init (P.map (ActorBackends.pyseqOp F)) = some (s, os) ∧ (∀ e, Pyseq.Out.raised e ∉ os) ∧
      ∀ i, (Pyseq.getOne s i).map objRes = (Spec.Actors.directly F ⟨[], []⟩ P).env[i]?

/-- A call of a method of the actor `h` that arrives at a worker. -/
def methodCall (h : Nat) : Worker.Event → Option (Worker.Request × Nat)
  | .op (.actorExecute r k n) => if k = h then some (r, n) else none
  | _ => none

/-- The state of an actor after a call of a method with these arguments. -/
def stateNext (W : Worker.World) (name : Nat) (st : Worker.Val) (args : List Worker.Val) : Worker.Val :=
  match Spec.firstFailure args with
  | some _ => st
  | none => (W.method name st args).1

/-- C131 as stated for a worker of the MPI backend with one actor: when no call is held back any more, the state of the actor is that of the calls
made directly one after the other. -/
def C131_mpi_full : Prop :=
  ∀ (W : Worker.World) (rank monitor h : Nat) (st : Worker.Val) (es : List Worker.Event) (w : Worker.Worker),
    (∀ r n, Worker.Event.op (.actorExecute r h n) ∈ es → W.isAsync n = false) → (∀ s', Worker.Event.op (.actorCreate h s') ∉ es) →
    (Worker.Worker.init rank monitor).run W (.op (.actorCreate h st) :: es) = .ok w → w.pendingActor = [] →
    w.actors h = some ((es.filterMap (methodCall h)).foldl (fun s q => stateNext W q.2 s (Spec.substList w.store q.1.args)) st)

/-- C131 as stated. -/
def C131_full : Prop := C131_pymp_full ∧ C131_pyseq_full ∧ C131_mpi_full

/-- Code for the examples: functions as in `exFuns`; an object of class `c` starts with `c`; method 0 adds the sum of its arguments and returns the
state before, method 1 returns the state and how often the class number fits, method 2 adds one and raises error 9. -/
def exActors : Spec.Actors.Code where
  toFuns := exFuns
  start c := c
  mrets m := if m = 1 then 2 else 1
  mcode c m st vs := if m = 0 then (.ok [st], st + vs.sum) else if m = 1 then (.ok [st, st / c], st) else (.error 9, st + 1)
  mfits c m st vs l h := by
    by_cases e : m = 0
    · subst e; simp at h; subst h; rfl
    · by_cases e1 : m = 1
      · subst e1; simp at h; subst h; rfl
      · simp [e, e1] at h

/-- Violation: with one worker, kept by an actor, a function cannot be called. -/
theorem C131_room_violated : ¬ C131_pymp_full := by
  intro h
  obtain ⟨s, hr, hs⟩ := Option.map_eq_some_iff.1 (show (Pymp.run (actorWorld exActors) (Pymp.State.init 1) [.create 4, .submit 3 [] 1]).map
    (fun s => (s.workers, (Pymp.getOne (actorWorld exActors) s 0).map objRes)) = some ([(⟨[], none, false⟩ : Pymp.Worker)], none) by decide +kernel)
  simp only [Prod.mk.injEq] at hs
  have := h exActors [.make 4, .call 3 []] ⟨by simp, trivial⟩ 1 [.create 4, .submit 3 [] 1] s (by omega) rfl hr (by
    intro a ha
    have hw : ∀ (w : Nat) x, s.workers[w]? = some x → x = (⟨[], none, false⟩ : Pymp.Worker) := by
      intro w x hx
      rw [hs.1] at hx
      have := List.mem_of_getElem? hx
      rw [List.mem_singleton] at this
      exact this
    cases a with
    | take w =>
      simp only [Pymp.step]
      split
      · rename_i hx; cases hw w _ hx
      · rfl
    | fetch w =>
      simp only [Pymp.step]
      split
      · rename_i hx; cases hw w _ hx
      · rename_i hx; cases hw w _ hx
      · rename_i hx; cases hw w _ hx
      · rfl
    | finish w =>
      simp only [Pymp.step]
      split
      · rename_i hx; cases hw w _ hx
      · rfl
    | write w =>
      simp only [Pymp.step]
      split
      · rename_i hx; cases hw w _ hx
      · rename_i hx; cases hw w _ hx
      · rfl
    | _ => cases ha) 0
  rw [hs.2] at this
  revert this
  decide +kernel

/-- Violation: a method called with a failed result raises at the call on the sequential backend. -/
theorem C131_failed_violated : ¬ C131_pyseq_full := by
  intro h
  obtain ⟨s, os, hr, hn, -⟩ := h exActors [.make 4, .call 0 [], .method 0 0 [.ref 0]] ⟨by simp, by omega, by simp [exActors, exFuns], trivial⟩
  have : (Pyseq.run (actorWorld exActors) Pyseq.State.init ([Spec.Actors.Call.make 4, .call 0 [], .method 0 0 [.ref 0]].map
      (ActorBackends.pyseqOp exActors))).map (·.2) = some [.refs [], .refs [0], .raised (.user 7)] := by decide +kernel
  rw [hr] at this
  simp only [Option.map_some, Option.some.injEq] at this
  subst this
  exact hn (.user 7) (by simp)

theorem pymp_all {F : Spec.Actors.Code} {P : List Spec.Actors.Call} {n : Nat} (hn : 0 < n) (hroom : Spec.Actors.Room n 0 P) {acts : List Pymp.Act}
    {s : Pymp.State} (hc : acts.filter pympMain = P.map (ActorBackends.pympAct F))
    (hr : Pymp.run (actorWorld F) (Pymp.State.init n) acts = some s) :
    s.items = ActorBackends.itemsOf F 0 0 [] P ∧ ActorBackends.ActorsAre s (ActorBackends.classesOf [] P) := by
  have := ActorBackends.pymp_items F n acts (s := Pymp.State.init n) (cl := [])
    ⟨by simp [Pymp.State.init, PympPool.Pool.init], by simpa [Pymp.State.init, PympPool.Pool.init] using hn, by simp [Pymp.State.init, PympPool.Pool.init, List.count_replicate]⟩
    rfl hroom hc hr
  simpa [Pymp.State.init] using this

theorem pymp_all_items {F : Spec.Actors.Code} {P : List Spec.Actors.Call} {n : Nat} (hn : 0 < n) (hroom : Spec.Actors.Room n 0 P)
    {acts : List Pymp.Act} {s : Pymp.State} (hc : acts.filter pympMain = P.map (ActorBackends.pympAct F))
    (hr : Pymp.run (actorWorld F) (Pymp.State.init n) acts = some s) : s.items = ActorBackends.itemsOf F 0 0 [] P := (pymp_all hn hroom hc hr).1

theorem pymp_all_actors {F : Spec.Actors.Code} {P : List Spec.Actors.Call} {n : Nat} (hn : 0 < n) (hroom : Spec.Actors.Room n 0 P)
    {acts : List Pymp.Act} {s : Pymp.State} (hc : acts.filter pympMain = P.map (ActorBackends.pympAct F))
    (hr : Pymp.run (actorWorld F) (Pymp.State.init n) acts = some s) :
    s.actors.map (·.cls) = (Spec.Actors.directly F ⟨[], []⟩ P).objs.map (·.1) := by
  have h := congrArg (List.map (·.1)) (pymp_all hn hroom hc hr).2
  simp only [List.map_map] at h
  have e1 : ((fun x : Nat × Bool => x.1) ∘ fun x : Pymp.Actor => (x.cls, x.live)) = (·.cls) := rfl
  have e2 : ((fun x : Nat × Bool => x.1) ∘ fun c : Nat => (c, true)) = id := rfl
  rw [e1, e2, List.map_id] at h
  rw [h]
  exact (ActorBackends.classes_directly F P ⟨[], []⟩).symm

theorem meaning_agrees (F : Spec.Actors.Code) (P : List Spec.Actors.Call) (hf : Spec.Actors.Formed F 0 0 P) :
    ActorBackends.Agree F (Spec.Actors.directly F ⟨[], []⟩ P) (Spec.Pymp.meaning (actorWorld F) (ActorBackends.itemsOf F 0 0 [] P)) :=
  ActorBackends.agree_items F P (s := ⟨[], []⟩) (E := Spec.Pymp.Env.empty) 0 ⟨by simp [Spec.Pymp.Env.empty], by simp, by simp [Spec.Pymp.Env.empty]⟩ hf

theorem plain_items (F : Spec.Actors.Code) (cs : List Spec.Actors.Call) : ∀ (k nx : Nat) (cl : List Nat),
    Spec.Pymp.PlainPuts (ActorBackends.itemsOf F k nx cl cs) := by
  induction cs with
  | nil => intro k nx cl id v h; cases h
  | cons c cs ih =>
    intro k nx cl id v h
    cases c with
    | put m =>
      rcases List.mem_cons.1 h with h | h
      · cases h; rfl
      · exact ih _ _ _ id v h
    | call f args =>
      rcases List.mem_cons.1 h with h | h
      · cases h
      · exact ih _ _ _ id v h
    | make c => exact ih _ _ _ id v h
    | method a m args =>
      rcases List.mem_cons.1 h with h | h
      · cases h
      · exact ih _ _ _ id v h

theorem fits_items (F : Spec.Actors.Code) (cs : List Spec.Actors.Call) : ∀ (k nx : Nat) (cl : List Nat),
    Spec.Pymp.Fits (actorWorld F) (ActorBackends.itemsOf F k nx cl cs) := by
  have key : ∀ n x (outs : List Nat) v l, (∀ l, x = .ok l → l.length = n) → outs.length = n → objRet n x = .ok v l →
      outs.length ≤ 1 ∨ ∃ xs, l = some xs ∧ outs.length ≤ xs.length := by
    intro n x outs v l hx ho hap
    cases x with
    | error e => cases hap
    | ok l' =>
      simp only [objRet] at hap
      split at hap
      · left; omega
      · cases hap
        exact Or.inr ⟨_, rfl, by simp [ho, hx l' rfl]⟩
  induction cs with
  | nil => intro k nx cl t h; cases h
  | cons c cs ih =>
    intro k nx cl t h
    cases c with
    | put m =>
      rcases List.mem_cons.1 h with h | h
      · cases h
      · exact ih _ _ _ t h
    | call f args =>
      rcases List.mem_cons.1 h with h | h
      · cases h
        intro hist vs v l hap
        exact key (F.rets f) _ _ v l (F.fits f _) (by simp) hap
      · exact ih _ _ _ t h
    | make c => exact ih _ _ _ t h
    | method a m args =>
      rcases List.mem_cons.1 h with h | h
      · cases h
        intro hist vs v l hap
        exact key (F.mrets m) _ _ v l (F.mfits _ m _ _) (by simp) hap
      · exact ih _ _ _ t h

theorem refs_items (F : Spec.Actors.Code) (cs : List Spec.Actors.Call) : ∀ (s : Spec.Actors.Local) (k : Nat) {i : Nat},
    Spec.Actors.Formed F s.env.length s.objs.length cs → i < (Spec.Actors.directly F s cs).env.length → i < s.env.length ∨
      ∃ x ∈ ActorBackends.itemsOf F k s.env.length (s.objs.map (·.1)) cs, i ∈ x.refs := by
  induction cs with
  | nil => intro s k i _ h; exact Or.inl h
  | cons c cs ih =>
    intro s k i hf h
    obtain ⟨-, -, hl, hf'⟩ := ActorBackends.formed_cons hf
    have hcl := ActorBackends.classes_direct F c s
    have key : ∀ k', i < s.env.length ∨ (s.env.length ≤ i ∧ i < s.env.length + ActorBackends.count F c) ∨
        ∃ x ∈ ActorBackends.itemsOf F k' (s.env.length + ActorBackends.count F c) ((Spec.Actors.direct F s c).objs.map (·.1)) cs, i ∈ x.refs := by
      intro k'
      rcases ih (Spec.Actors.direct F s c) k' hf' h with h1 | h1
      · rw [hl] at h1
        by_cases e : i < s.env.length
        · exact Or.inl e
        · exact Or.inr (Or.inl ⟨by omega, h1⟩)
      · rw [hl] at h1
        exact Or.inr (Or.inr h1)
    cases c with
    | put m =>
      rcases key (k + 1) with h1 | h1 | ⟨x, hx, hxi⟩
      · exact Or.inl h1
      · exact Or.inr ⟨_, List.mem_cons_self .., by simp [Pymp.Item.refs, ActorBackends.count] at h1 ⊢; omega⟩
      · exact Or.inr ⟨x, List.mem_cons_of_mem _ hx, hxi⟩
    | call f args =>
      rcases key (k + 1) with h1 | h1 | ⟨x, hx, hxi⟩
      · exact Or.inl h1
      · refine Or.inr ⟨_, List.mem_cons_self .., ?_⟩
        simp only [Pymp.Item.refs, List.mem_map, List.mem_range]
        simp only [ActorBackends.count] at h1
        exact ⟨i - s.env.length, by omega, by omega⟩
      · exact Or.inr ⟨x, List.mem_cons_of_mem _ hx, hxi⟩
    | make c =>
      rcases key k with h1 | h1 | ⟨x, hx, hxi⟩
      · exact Or.inl h1
      · simp [ActorBackends.count] at h1; omega
      · rw [hcl] at hx
        exact Or.inr ⟨x, hx, hxi⟩
    | method a m args =>
      rcases key (k + 1) with h1 | h1 | ⟨x, hx, hxi⟩
      · exact Or.inl h1
      · refine Or.inr ⟨_, List.mem_cons_self .., ?_⟩
        simp only [Pymp.Item.refs, List.mem_map, List.mem_range]
        simp only [ActorBackends.count] at h1
        exact ⟨i - s.env.length, by omega, by omega⟩
      · rw [hcl] at hx
        exact Or.inr ⟨x, List.mem_cons_of_mem _ hx, hxi⟩

/-- C131, the rest for the multiprocessing backend: if a worker is left for each call of a function and each new actor then, for any interleaving,
every result that `get` gives is that of the calls made directly, errors included; the workers make only finitely many steps, and when they
can make no more every result is there. -/
theorem C131_pymp_partial (F : Spec.Actors.Code) (P : List Spec.Actors.Call) (hf : Spec.Actors.Formed F 0 0 P) (n : Nat) (hn : 0 < n)
    (hroom : Spec.Actors.Room n 0 P) (acts : List Pymp.Act) (s : Pymp.State)
    (hc : acts.filter pympMain = P.map (ActorBackends.pympAct F)) (hr : Pymp.run (actorWorld F) (Pymp.State.init n) acts = some s) :
    (∀ i r, Pymp.getOne (actorWorld F) s i = some r → (Spec.Actors.directly F ⟨[], []⟩ P).env[i]? = some (objRes r)) ∧
    ∃ bound, ∀ (more : List Pymp.Act) (s' : Pymp.State), (∀ a ∈ more, pympMain a = false) → Pymp.run (actorWorld F) s more = some s' →
      more.length ≤ bound ∧ ((∀ a, pympMain a = false → Pymp.step (actorWorld F) s' a = none) →
        ∀ i, (Pymp.getOne (actorWorld F) s' i).map objRes = (Spec.Actors.directly F ⟨[], []⟩ P).env[i]?) := by
  have hit : ∀ acts s, acts.filter pympMain = P.map (ActorBackends.pympAct F) → Pymp.run (actorWorld F) (Pymp.State.init n) acts = some s →
      s.items = ActorBackends.itemsOf F 0 0 [] P := fun acts s hc hr => pymp_all_items hn hroom hc hr
  have right : ∀ acts s, acts.filter pympMain = P.map (ActorBackends.pympAct F) → Pymp.run (actorWorld F) (Pymp.State.init n) acts = some s →
      ∀ i r, Pymp.getOne (actorWorld F) s i = some r → (Spec.Actors.directly F ⟨[], []⟩ P).env[i]? = some (objRes r) := by
    intro acts s hc hr i r hg
    have h := C65_schedule_partial (actorWorld F) (ActorBackends.plainWorld F) n acts s hr (by rw [hit acts s hc hr]; exact plain_items F P _ _ _) i
    have hm : (Spec.Pymp.meaning (actorWorld F) s.items).val i = ((Spec.Actors.directly F ⟨[], []⟩ P).env[i]?).map toOut := by
      rw [hit acts s hc hr]
      exact (meaning_agrees F P hf).val i
    cases r with
    | ok v =>
      have := h.1 v hg
      rw [hm] at this
      obtain ⟨x, hx, hxv⟩ := Option.map_eq_some_iff.1 this
      cases x with
      | value m => cases hxv; exact hx
      | raised e => cases hxv
    | error e =>
      have := h.2 e hg
      rw [hm] at this
      obtain ⟨x, hx, hxv⟩ := Option.map_eq_some_iff.1 this
      cases x with
      | value m => cases hxv
      | raised e => cases hxv; exact hx
  refine ⟨right acts s hc hr, ?_⟩
  have hby : ∀ a : Pymp.Act, pympMain a = false ↔ a.byWorker ≠ none := by
    intro a; cases a <;> simp [pympMain, Pymp.Act.byWorker]
  obtain ⟨bound, hb⟩ := C66_progress_partial (actorWorld F) n acts s hr (by rw [hit acts s hc hr]; exact fits_items F P _ _ _)
  refine ⟨bound, fun more s' hmore hrun => ?_⟩
  obtain ⟨h1, h2⟩ := hb more s' (fun a ha => (hby a).1 (hmore a ha)) hrun
  refine ⟨h1, fun hstop i => ?_⟩
  have hall := h2.2 fun a ha => hstop a ((hby a).2 ha)
  have hc2 : (acts ++ more).filter pympMain = P.map (ActorBackends.pympAct F) := by
    rw [List.filter_append, hc, List.filter_eq_nil_iff.2 (fun a ha => by simp [hmore a ha]), List.append_nil]
  have hr2 : Pymp.run (actorWorld F) (Pymp.State.init n) (acts ++ more) = some s' := by
    have happ : ∀ (as : List Pymp.Act) (u : Pymp.State), Pymp.run (actorWorld F) u as = some s → Pymp.run (actorWorld F) u (as ++ more) = some s' := by
      intro as
      induction as with
      | nil => intro u hu; simp only [Pymp.run, Option.some.injEq] at hu; subst hu; exact hrun
      | cons a as ih =>
        intro u hu
        simp only [Pymp.run, List.cons_append] at hu ⊢
        split at hu
        · cases hu
        · exact ih _ hu
    exact happ acts _ hr
  cases hg : Pymp.getOne (actorWorld F) s' i with
  | some r => rw [right _ _ hc2 hr2 i r hg]; rfl
  | none =>
    cases hd : (Spec.Actors.directly F ⟨[], []⟩ P).env[i]? with
    | none => rfl
    | some x =>
      exfalso
      rcases refs_items F P ⟨[], []⟩ 0 hf (List.getElem?_eq_some_iff.1 hd).1 with h | ⟨x, hx, hxi⟩
      · cases h
      · exact hall x (by rw [hit _ _ hc2 hr2]; exact hx) i hxi hg

/-- C131, the rest for the multiprocessing backend: when the workers are idle, the actors are in the states of the local objects. -/
theorem C131_pymp_states_partial (F : Spec.Actors.Code) (P : List Spec.Actors.Call) (hf : Spec.Actors.Formed F 0 0 P) (n : Nat) (hn : 0 < n)
    (hroom : Spec.Actors.Room n 0 P) (acts : List Pymp.Act) (s : Pymp.State)
    (hc : acts.filter pympMain = P.map (ActorBackends.pympAct F)) (hr : Pymp.run (actorWorld F) (Pymp.State.init n) acts = some s)
    (hidle : ∀ x ∈ s.workers, x.queue = [] ∧ x.cur = none) :
    s.actors.map (fun y => (y.cls, stateAfter F y.cls y.hist)) = (Spec.Actors.directly F ⟨[], []⟩ P).objs := by
  have hi := pymp_all_items hn hroom hc hr
  have hcl := pymp_all_actors hn hroom hc hr
  have hg := meaning_agrees F P hf
  rw [← hi] at hg
  have hlen := congrArg List.length hcl
  simp only [List.length_map] at hlen
  apply List.ext_getElem?
  intro a
  rw [List.getElem?_map]
  cases hy : s.actors[a]? with
  | none =>
    rw [List.getElem?_eq_none_iff] at hy
    rw [List.getElem?_eq_none (by omega)]
    rfl
  | some y =>
    have hyl := (List.getElem?_eq_some_iff.1 hy).1
    obtain ⟨⟨c, st⟩, hx⟩ : ∃ x, (Spec.Actors.directly F ⟨[], []⟩ P).objs[a]? = some x := ⟨_, List.getElem?_eq_getElem (by omega)⟩
    have h1 := C69_history (actorWorld F) (ActorBackends.plainWorld F) n acts s hr (by rw [hi]; exact plain_items F P _ _ _) hidle a y hy
    have h2 := congrArg (fun l => l[a]?) hcl
    simp only [List.getElem?_map, hy, hx, Option.map_some, Option.some.injEq] at h2
    rw [hx, Option.map_some, h1, h2, hg.hist a c st hx]

/-- C131, the rest for the sequential backend: exactly if no call has a failed argument, the program runs to its end without raising; then every
reference gives what the calls made directly give, errors included, and the actors are in the states of the local objects. -/
theorem C131_pyseq_partial (F : Spec.Actors.Code) (P : List Spec.Actors.Call) (hf : Spec.Actors.Formed F 0 0 P) :
    (Spec.Actors.ArgsFine F ⟨[], []⟩ P ↔ ∃ s os, Pyseq.run (actorWorld F) Pyseq.State.init (P.map (ActorBackends.pyseqOp F)) = some (s, os) ∧
      ∀ e, Pyseq.Out.raised e ∉ os) ∧
    ∀ s os, Pyseq.run (actorWorld F) Pyseq.State.init (P.map (ActorBackends.pyseqOp F)) = some (s, os) → (∀ e, Pyseq.Out.raised e ∉ os) →
      (∀ i, (Pyseq.getOne s i).map objRes = (Spec.Actors.directly F ⟨[], []⟩ P).env[i]?) ∧
      s.actors.map (fun y => (y.1, stateAfter F y.1 y.2)) = (Spec.Actors.directly F ⟨[], []⟩ P).objs := by
  have h0 : ActorBackends.SeqAgree F ⟨[], []⟩ Pyseq.State.init := ⟨⟨rfl, by simp, by simp [Pyseq.State.init]⟩, rfl⟩
  refine ⟨⟨fun ha => ?_, fun ⟨s, os, hr, hn⟩ => ActorBackends.seq_fine F P h0 hf hr hn⟩, fun s os hr hn => ?_⟩
  · obtain ⟨s, os, hr, hn, -⟩ := ActorBackends.seq_run F P h0 hf ha
    exact ⟨s, os, hr, hn⟩
  · obtain ⟨s', os', hr', -, hs⟩ := ActorBackends.seq_run F P h0 hf (ActorBackends.seq_fine F P h0 hf hr hn)
    rw [hr] at hr'
    cases hr'
    refine ⟨fun i => ?_, hs.objs⟩
    simp only [Pyseq.getOne, hs.ok.store, List.getElem?_map, Option.map_map]
    cases (Spec.Actors.directly F ⟨[], []⟩ P).env[i]? with
    | none => rfl
    | some x => exact congrArg some (objRes_check x)

/-- Violation: a call whose argument comes late is overtaken by the next one on the MPI backend. -/
theorem C131_overtaken_violated : ¬ C131_mpi_full := by
  intro h
  cases hr : (Worker.Worker.init 2 1).run Worker.exCode exLate with
  | error e =>
    have : ((Worker.Worker.init 2 1).run Worker.exCode exLate).toOption.isSome = true := by decide +kernel
    rw [hr] at this; simp [Except.toOption] at this
  | ok w =>
    have hw : ((Worker.Worker.init 2 1).run Worker.exCode exLate).toOption.map (fun w => (w.actors 7, w.pendingActor.length, w.store 5)) =
      some (some (.data 11), 0, some (.data 3)) := by decide +kernel
    rw [hr] at hw
    simp only [Except.toOption, Option.map_some, Option.some.injEq, Prod.mk.injEq] at hw
    have := h Worker.exCode 2 1 7 (.data 5) exLate.tail w (by intro r n hm; simp [exLate] at hm; rcases hm with ⟨-, rfl⟩ | ⟨-, rfl⟩ <;> rfl) (by intro s' hs'; simp [exLate] at hs') hr
      (List.eq_nil_of_length_eq_zero hw.2.1)
    have hsub : Spec.substList w.store [.ref 5] = [.data 3] := by simp [Spec.substList, Spec.subst, hw.2.2]
    rw [hw.1] at this
    simp only [exLate, List.tail_cons, List.filterMap_cons, List.filterMap_nil, methodCall, if_true, List.foldl_cons, List.foldl_nil, hsub] at this
    revert this
    simp only [show Spec.substList w.store [] = [] from rfl]
    decide +kernel

/-- C131 does not hold on any of the three backends. -/
theorem C131_violated : ¬ C131_full := fun h => C131_room_violated h.1

/-- C131, the rest for a worker of the MPI backend: if no argument of a method call contains a reference and the methods are no coroutines, the
state of the actor is that of the calls made directly, whatever else the worker does. -/
theorem C131_mpi_partial (W : Worker.World) (rank monitor h : Nat) (st : Worker.Val) (es : List Worker.Event) (w : Worker.Worker)
    (htask : ∀ r, Worker.Event.op (.execute r) ∈ es → ∃ f, r.task = .fn f) (hone : ∀ s', Worker.Event.op (.actorCreate h s') ∉ es)
    (hargs : ∀ r n, Worker.Event.op (.actorExecute r h n) ∈ es → Spec.refsList r.args = [] ∧ W.isAsync n = false)
    (hrun : (Worker.Worker.init rank monitor).run W (.op (.actorCreate h st) :: es) = .ok w) :
    w.actors h = some ((es.filterMap (methodCall h)).foldl (fun s q => stateNext W q.2 s q.1.args) st) := by
  exact (C44_order_partial W rank monitor [] es h st w hrun (by simpa using htask) (by simp) hone hargs).2

/-- A program with two actors and functions on their results; the second actor's method fails and changes its state. -/
def exActorProgram : List Spec.Actors.Call :=
  [.make 4, .put 5, .method 0 0 [.ref 0], .make 3, .method 0 1 [], .call 3 [.ref 1, .ref 2], .method 1 2 [.ref 3], .method 0 0 [.ref 4],
   .method 1 1 []]

example : Spec.Actors.directly exActors ⟨[], []⟩ exActorProgram =
    ⟨[.value 5, .value 4, .value 9, .value 2, .value 16, .raised 9, .value 9, .value 4, .value 1], [(4, 25), (3, 4)]⟩ := by decide +kernel

example : (Pyseq.run (actorWorld exActors) Pyseq.State.init (exActorProgram.map (ActorBackends.pyseqOp exActors))).map
    (fun q => ((List.range 9).map fun i => (Pyseq.getOne q.1 i).map objRes, q.1.actors.map fun y => (y.1, stateAfter exActors y.1 y.2))) =
    some ([.value 5, .value 4, .value 9, .value 2, .value 16, .raised 9, .value 9, .value 4, .value 1].map some, [(4, 25), (3, 4)]) := by
  decide +kernel

/-- With three workers; the first actor has run its first method. -/
example : (Pymp.run (actorWorld exActors) (Pymp.State.init 3) (exActorProgram.map (ActorBackends.pympAct exActors) ++
    [.take 0, .take 1, .fetch 0, .fetch 0, .finish 0, .write 0])).map
    (fun q => ((List.range 9).map fun i => (Pymp.getOne (actorWorld exActors) q i).map objRes, q.actors.map fun y => (y.cls, stateAfter exActors y.cls y.hist))) =
    some ([some (.value 5), some (.value 4), none, none, none, none, none, none, none], [(4, 9), (3, 3)]) := by decide +kernel

example : Spec.Actors.Formed exActors 0 0 exActorProgram ∧ Spec.Actors.Room 3 0 exActorProgram := by
  refine ⟨?_, ?_⟩
  · simp [exActorProgram, Spec.Actors.Formed, exActors, exFuns]
  · simp [exActorProgram, Spec.Actors.Room]

end Verif.Props
