import Verif.Lemmas.Backends

/-! # C128 The same program gives the same results on every backend -/
namespace Verif.Props
open Verif.Backends Verif.Spec.Backends

/-- C128 as stated: a program that puts numbers and calls functions gives on the MPI, the multiprocessing and the sequential backend what direct
calls give. -/
def C128_full : Prop :=
  ∀ (F : Funs) (P : List Call), Formed F 0 P →
    (∀ ws ops s, callsMade ops = mpiCalls F [] 0 [] P → (Valued.Sys.init ws).run (mpiWorld F) ops = some s →
      ∀ (i r : Nat) v, (mpiPos F [] 0 [] P)[i]? = some r → (r, v) ∈ s.got → (direct F [] P)[i]? = some (mpiRes v)) ∧
    (∀ n acts s, 0 < n → acts.filter pympMain = P.map (pympAct F) → Pymp.run (objWorld F) (Pymp.State.init n) acts = some s →
      ∀ i r, Pymp.getOne (objWorld F) s i = some r → (direct F [] P)[i]? = some (objRes r)) ∧
    ∃ s os, Pyseq.run (objWorld F) Pyseq.State.init (P.map (pyseqOp F)) = some (s, os) ∧ (∀ e, Pyseq.Out.raised e ∉ os) ∧
      ∀ i, (Pyseq.getOne s i).map objRes = (direct F [] P)[i]?

/-- Functions for the examples: function 0 raises error 7, function 1 returns two results, the others their number plus the sum of their
arguments. -/
def exFuns : Funs where
  rets f := if f = 1 then 2 else 1
  code f vs := if f = 0 then .error 7 else if f = 1 then .ok [vs.sum, vs.length] else .ok [f + vs.sum]
  fits f vs l h := by
    by_cases e : f = 0
    · simp [e] at h
    · by_cases e1 : f = 1
      · simp only [e1, if_true, if_false, Nat.one_ne_zero, Except.ok.injEq] at h ⊢
        subst h; rfl
      · simp only [e, e1, if_false, Except.ok.injEq] at h ⊢
        subst h; rfl

/-- C128 does not hold: a failed result is passed on. The sequential backend raises at the call. -/
theorem C128_violated : ¬ C128_full := by
  intro h
  obtain ⟨-, -, s, os, hr, hn, -⟩ := h exFuns [.call 0 [], .call 2 [.ref 0]] ⟨by simp, by simp [exFuns], trivial⟩
  have : (Pyseq.run (objWorld exFuns) Pyseq.State.init ([Call.call 0 [], .call 2 [.ref 0]].map (pyseqOp exFuns))).map (·.2) =
      some [.refs [0], .raised (.user 7)] := by decide +kernel
  rw [hr] at this
  simp only [Option.map_some, Option.some.injEq] at this
  subst this
  exact hn (.user 7) (by simp)

theorem mpi_start : MpiOk [] [] 0 [] [] := ⟨rfl, by simp, rfl, by simp⟩

/-- C128, the rest for MPI: whatever workers are chosen, in whatever order messages arrive and whatever is dropped and cleaned up, every result that
`get` gives is that of the direct calls, errors included; and if no `get` names a reference twice then, when no more messages can arrive, every
`get` has been answered. -/
theorem C128_mpi_partial (F : Funs) (P : List Call) (hf : Formed F 0 P) (ws : List Nat) (ops : List Valued.Op) (s : Valued.Sys)
    (hc : callsMade ops = mpiCalls F [] 0 [] P) (hr : (Valued.Sys.init ws).run (mpiWorld F) ops = some s) :
    (mpiPos F [] 0 [] P).length = (direct F [] P).length ∧
    (∀ (i r : Nat) v, (mpiPos F [] 0 [] P)[i]? = some r → (r, v) ∈ s.got → (direct F [] P)[i]? = some (mpiRes v)) ∧
    (0 ∉ ws → ws.Nodup → (∀ args n d, Valued.Op.submit args n d true ∉ ops) → (∀ ids, Valued.Op.get ids ∈ ops → ids.Nodup) →
      (∃ N, ∀ ds s', (∀ op ∈ ds, Comes op) → s.run (mpiWorld F) ds = some s' → ds.length ≤ N) ∧
      ∀ ds s', (∀ op ∈ ds, Comes op) → s.run (mpiWorld F) ds = some s' → (∀ op, Comes op → s'.step (mpiWorld F) op = none) →
        ∀ ids (i r : Nat), Valued.Op.get ids ∈ ops → (mpiPos F [] 0 [] P)[i]? = some r → r ∈ ids →
          ∃ v, (r, v) ∈ s'.got ∧ (direct F [] P)[i]? = some (mpiRes v)) := by
  obtain ⟨hl, hv⟩ := mpi_run F P mpi_start hf
  have key : ∀ (i r : Nat) (v : Valued.Val), (mpiPos F [] 0 [] P)[i]? = some r → (Spec.Valued.values (mpiWorld F) [] ops)[r]? = some v →
      (direct F [] P)[i]? = some (mpiRes v) := by
    intro i r v hi hrv
    have hlt := (List.getElem?_eq_some_iff.1 hi).1
    obtain ⟨x, hx⟩ : ∃ x, (direct F [] P)[i]? = some x := ⟨_, List.getElem?_eq_getElem (hl ▸ hlt)⟩
    have := hv i x hx
    rw [List.getD_eq_getElem?_getD, hi, Option.getD_some, ← hc, ← values_fold, hrv] at this
    rw [hx, Option.some.inj this, mpiRes_toVal]
  refine ⟨hl, fun i r v hi hg => key i r v hi (C127_right_values _ ws ops s hr r v hg), fun h0 hn hm hg => ?_⟩
  obtain ⟨h1, h2⟩ := C127_all_gets_answered (mpiWorld F) ws ops s h0 hn hm hg hr
  refine ⟨h1, fun ds s' hd hs he ids i r hid hi hri => ?_⟩
  obtain ⟨v, hv1, hv2⟩ := h2 ds s' hd hs he ids r hid hri
  exact ⟨v, hv1, key i r v hi hv2⟩

/-- C128, the rest for multiprocessing: for any number of workers and any interleaving every result that `get` gives is that of the direct calls,
errors included; the workers make only finitely many steps, and when they can make no more every result is there. -/
theorem C128_pymp_partial (F : Funs) (P : List Call) (hf : Formed F 0 P) (n : Nat) (hn : 0 < n) (acts : List Pymp.Act) (s : Pymp.State)
    (hc : acts.filter pympMain = P.map (pympAct F)) (hr : Pymp.run (objWorld F) (Pymp.State.init n) acts = some s) :
    (∀ i r, Pymp.getOne (objWorld F) s i = some r → (direct F [] P)[i]? = some (objRes r)) ∧
    ∃ bound, ∀ (more : List Pymp.Act) (s' : Pymp.State), (∀ a ∈ more, pympMain a = false) → Pymp.run (objWorld F) s more = some s' →
      more.length ≤ bound ∧ ((∀ a, pympMain a = false → Pymp.step (objWorld F) s' a = none) →
        ∀ i, (Pymp.getOne (objWorld F) s' i).map objRes = (direct F [] P)[i]?) := by
  have hit : ∀ acts s, acts.filter pympMain = P.map (pympAct F) → Pymp.run (objWorld F) (Pymp.State.init n) acts = some s →
      s.items = itemsOf F 0 0 P := by
    intro acts s hc hr
    have := pymp_items F acts (s := Pymp.State.init n) (by simp [Pymp.State.init, PympPool.Pool.init]) (by simpa [Pymp.State.init, PympPool.Pool.init] using hn) hc hr
    simpa [Pymp.State.init] using this
  have hplain : ∀ (cs : List Call) (k nx : Nat), Spec.Pymp.PlainPuts (itemsOf F k nx cs) := by
    intro cs
    induction cs with
    | nil => intro k nx id v h; cases h
    | cons c cs ih =>
      intro k nx id v h
      cases c with
      | put m =>
        rcases List.mem_cons.1 h with h | h
        · cases h; rfl
        · exact ih _ _ id v h
      | call f args =>
        rcases List.mem_cons.1 h with h | h
        · cases h
        · exact ih _ _ id v h
  have right : ∀ acts s, acts.filter pympMain = P.map (pympAct F) → Pymp.run (objWorld F) (Pymp.State.init n) acts = some s →
      ∀ i r, Pymp.getOne (objWorld F) s i = some r → (direct F [] P)[i]? = some (objRes r) := by
    intro acts s hc hr i r hg
    have h := C65_schedule_partial (objWorld F) (plainWorld F) n acts s hr (by rw [hit acts s hc hr]; exact hplain _ _ _) i
    have hm : (Spec.Pymp.meaning (objWorld F) s.items).val i = ((direct F [] P)[i]?).map toOut := by
      rw [hit acts s hc hr]
      exact meaning_items F P (env := []) 0 (by simp [Spec.Pymp.Env.empty]) hf i
    cases r with
    | ok v =>
      have := h.1 v hg
      rw [hm] at this
      obtain ⟨x, hx, hxv⟩ := Option.map_eq_some_iff.1 this
      cases x with
      | value m => cases hxv; exact hx
      | raised e => cases hxv
    | error e =>
      have := h.2 e hg
      rw [hm] at this
      obtain ⟨x, hx, hxv⟩ := Option.map_eq_some_iff.1 this
      cases x with
      | value m => cases hxv
      | raised e => cases hxv; exact hx
  refine ⟨right acts s hc hr, ?_⟩
  have hfit : ∀ (cs : List Call) (k nx : Nat), Spec.Pymp.Fits (objWorld F) (itemsOf F k nx cs) := by
    intro cs
    induction cs with
    | nil => intro k nx t h; cases h
    | cons c cs ih =>
      intro k nx t h
      cases c with
      | put m =>
        rcases List.mem_cons.1 h with h | h
        · cases h
        · exact ih _ _ t h
      | call f args =>
        rcases List.mem_cons.1 h with h | h
        · cases h
          intro hist vs v l hap
          simp only [Spec.Pymp.apply, objWorld, objRet] at hap
          split at hap
          · cases hap
          · rename_i l' hc'
            split at hap
            · rename_i e1; left; simp [e1]
            · cases hap
              exact Or.inr ⟨_, rfl, by simp [F.fits f _ _ hc']⟩
        · exact ih _ _ t h
  have hby : ∀ a : Pymp.Act, pympMain a = false ↔ a.byWorker ≠ none := by
    intro a; cases a <;> simp [pympMain, Pymp.Act.byWorker]
  obtain ⟨bound, hb⟩ := C66_progress_partial (objWorld F) n acts s hr (by rw [hit acts s hc hr]; exact hfit _ _ _)
  refine ⟨bound, fun more s' hmore hrun => ?_⟩
  obtain ⟨h1, h2⟩ := hb more s' (fun a ha => (hby a).1 (hmore a ha)) hrun
  refine ⟨h1, fun hstop i => ?_⟩
  have hall := h2.2 fun a ha => hstop a ((hby a).2 ha)
  have hc2 : (acts ++ more).filter pympMain = P.map (pympAct F) := by
    rw [List.filter_append, hc, List.filter_eq_nil_iff.2 (fun a ha => by simp [hmore a ha]), List.append_nil]
  have hr2 : Pymp.run (objWorld F) (Pymp.State.init n) (acts ++ more) = some s' := by
    have happ : ∀ (as : List Pymp.Act) (u : Pymp.State), Pymp.run (objWorld F) u as = some s → Pymp.run (objWorld F) u (as ++ more) = some s' := by
      intro as
      induction as with
      | nil => intro u hu; simp only [Pymp.run, Option.some.injEq] at hu; subst hu; exact hrun
      | cons a as ih =>
        intro u hu
        simp only [Pymp.run, List.cons_append] at hu ⊢
        split at hu
        · cases hu
        · exact ih _ hu
    exact happ acts _ hr
  cases hg : Pymp.getOne (objWorld F) s' i with
  | some r => rw [right _ _ hc2 hr2 i r hg]; rfl
  | none =>
    cases hd : (direct F [] P)[i]? with
    | none => rfl
    | some x =>
      exfalso
      have hrefs : ∀ (cs : List Call) (env : List Res) (k : Nat), i < (direct F env cs).length → i < env.length ∨
          ∃ x ∈ itemsOf F k env.length cs, i ∈ x.refs := by
        intro cs
        induction cs with
        | nil => intro env k h; exact Or.inl h
        | cons c cs ih =>
          intro env k h
          have key : ∀ l, (resultsOf F env c).length = l → i < env.length ∨
              (env.length ≤ i ∧ i < env.length + l) ∨ ∃ x ∈ itemsOf F (k + 1) (env.length + l) cs, i ∈ x.refs := by
            intro l hl
            have := ih (env ++ resultsOf F env c) (k + 1) h
            rw [List.length_append, hl] at this
            rcases this with h1 | h1
            · by_cases e : i < env.length
              · exact Or.inl e
              · exact Or.inr (Or.inl ⟨by omega, h1⟩)
            · exact Or.inr (Or.inr h1)
          cases c with
          | put m =>
            rcases key 1 rfl with h1 | h1 | ⟨x, hx, hxi⟩
            · exact Or.inl h1
            · exact Or.inr ⟨_, List.mem_cons_self .., by simp [Pymp.Item.refs]; omega⟩
            · exact Or.inr ⟨x, List.mem_cons_of_mem _ hx, hxi⟩
          | call f args =>
            rcases key (F.rets f) (length_resultsOf F env f args) with h1 | h1 | ⟨x, hx, hxi⟩
            · exact Or.inl h1
            · refine Or.inr ⟨_, List.mem_cons_self .., ?_⟩
              simp only [Pymp.Item.refs, List.mem_map, List.mem_range]
              exact ⟨i - env.length, by omega, by omega⟩
            · exact Or.inr ⟨x, List.mem_cons_of_mem _ hx, hxi⟩
      rcases hrefs P [] 0 (List.getElem?_eq_some_iff.1 hd).1 with h | ⟨x, hx, hxi⟩
      · cases h
      · exact hall x (by rw [hit _ _ hc2 hr2]; exact hx) i hxi hg

/-- C128, the rest for the sequential backend: exactly if no call has a failed argument, the program runs to its end without raising; then
every reference gives what direct calls give, errors included. Missing: failed arguments (`C128_violated`). -/
theorem C128_pyseq_partial (F : Funs) (P : List Call) (hf : Formed F 0 P) :
    (ArgsFine F [] P ↔ ∃ s os, Pyseq.run (objWorld F) Pyseq.State.init (P.map (pyseqOp F)) = some (s, os) ∧ ∀ e, Pyseq.Out.raised e ∉ os) ∧
    ∀ s os, Pyseq.run (objWorld F) Pyseq.State.init (P.map (pyseqOp F)) = some (s, os) → (∀ e, Pyseq.Out.raised e ∉ os) →
      ∀ i, (Pyseq.getOne s i).map objRes = (direct F [] P)[i]? := by
  have h0 : SeqOk [] Pyseq.State.init := ⟨rfl, by simp, by simp [Pyseq.State.init]⟩
  refine ⟨⟨fun ha => ?_, fun ⟨s, os, hr, hn⟩ => seq_fine F P h0 hf hr hn⟩, fun s os hr hn i => ?_⟩
  · obtain ⟨s, os, hr, hn, -⟩ := seq_run F P h0 hf ha
    exact ⟨s, os, hr, hn⟩
  · obtain ⟨s', os', hr', -, hs⟩ := seq_run F P h0 hf (seq_fine F P h0 hf hr hn)
    rw [hr] at hr'
    cases hr'
    simp only [Pyseq.getOne, hs.store, List.getElem?_map, Option.map_map]
    cases (direct F [] P)[i]? with
    | none => rfl
    | some x => exact congrArg some (objRes_check x)

private theorem formed_snoc (F : Funs) (P : List Call) (c : Call) : ∀ {env : List Res}, Formed F env.length (P ++ [c]) →
    Formed F env.length P ∧ Formed F (direct F env P).length [c] := by
  induction P with
  | nil => intro env h; exact ⟨trivial, h⟩
  | cons a P ih =>
    intro env h
    obtain ⟨h1, h2⟩ := (formed_cons env rfl).1 h
    obtain ⟨h3, h4⟩ := ih h2
    exact ⟨(formed_cons env rfl).2 ⟨h1, h3⟩, h4⟩

private theorem pyseq_run_snoc (W : Pymp.World) (ops : List Pyseq.Op) (op : Pyseq.Op) : ∀ {s u v : Pyseq.State} {os : List Pyseq.Out} {o : Pyseq.Out},
    Pyseq.run W s ops = some (u, os) → Pyseq.step W u op = some (v, o) → Pyseq.run W s (ops ++ [op]) = some (v, os ++ [o]) := by
  induction ops with
  | nil =>
    intro s u v os o h1 h2
    simp only [Pyseq.run, Option.some.injEq, Prod.mk.injEq] at h1
    obtain ⟨rfl, rfl⟩ := h1
    simp [Pyseq.run, h2]
  | cons a ops ih =>
    intro s u v os o h1 h2
    simp only [Pyseq.run] at h1
    split at h1
    · cases h1
    · rename_i s1 o1 hs
      split at h1
      · cases h1
      · rename_i s2 os2 hr
        cases h1
        simp only [List.cons_append, Pyseq.run, hs, ih hr h2]

private theorem argsOf_first {env : List Res} (before after : List Arg) (i e : Nat) (hb : ∀ j, Arg.ref j ∈ before → j < env.length)
    (hn : ∀ j x, Arg.ref j ∈ before → env[j]? ≠ some (.raised x)) (hi : env[i]? = some (.raised e)) :
    argsOf env (before ++ .ref i :: after) = .error e := by
  induction before with
  | nil => simp only [List.nil_append, argsOf, hi]
  | cons a before ih =>
    have ih' := ih (fun j hj => hb j (List.mem_cons_of_mem _ hj)) (fun j x hj => hn j x (List.mem_cons_of_mem _ hj))
    cases a with
    | num n => simp only [List.cons_append, argsOf, ih', Except.map]
    | ref j =>
      obtain ⟨x, hx⟩ : ∃ x, env[j]? = some x := ⟨_, List.getElem?_eq_getElem (hb j (List.mem_cons_self ..))⟩
      cases x with
      | raised x => exact absurd hx (hn j x (List.mem_cons_self ..))
      | value n => simp only [List.cons_append, argsOf, hx, ih', Except.map]

/-- C128 on the sequential backend, where it goes wrong: the first call with a failed argument raises the error of the first failed argument, no call
before it raises, and every reference made before it still gives what direct calls give. -/
theorem C128_pyseq_first_partial (F : Funs) (P : List Call) (f : Nat) (before after : List Arg) (i e : Nat)
    (hf : Formed F 0 (P ++ [Call.call f (before ++ .ref i :: after)])) (ha : ArgsFine F [] P)
    (hn : ∀ j x, Arg.ref j ∈ before → (direct F [] P)[j]? ≠ some (.raised x)) (hi : (direct F [] P)[i]? = some (.raised e)) :
    ∃ s os, Pyseq.run (objWorld F) Pyseq.State.init ((P ++ [Call.call f (before ++ .ref i :: after)]).map (pyseqOp F)) =
        some (s, os ++ [.raised (.user e)]) ∧ (∀ x, Pyseq.Out.raised x ∉ os) ∧ ∀ j, (Pyseq.getOne s j).map objRes = (direct F [] P)[j]? := by
  have h0 : SeqOk [] Pyseq.State.init := ⟨rfl, by simp, by simp [Pyseq.State.init]⟩
  obtain ⟨hf1, hf2⟩ := formed_snoc F P _ (env := []) hf
  obtain ⟨s, os, hr, hno, hok⟩ := seq_run F P h0 hf1 ha
  have hargs := hf2.1
  refine ⟨s, os, ?_, hno, fun j => ?_⟩
  · rw [List.map_append]
    refine pyseq_run_snoc _ _ _ hr ?_
    have hk := (seq_known hok _).2 hargs
    simp only [pyseqOp, Pyseq.step, if_pos hk, Pyseq.submit, seq_args hok _ hargs,
      argsOf_first before after i e (fun j hj => hargs j (List.mem_append_left _ hj)) hn hi, Except.map]
  · simp only [Pyseq.getOne, hok.store, List.getElem?_map, Option.map_map]
    cases (direct F [] P)[j]? with
    | none => rfl
    | some x => exact congrArg some (objRes_check x)

/-- The second argument is the first one that failed. -/
example : (Pyseq.run (objWorld exFuns) Pyseq.State.init ([Call.put 5, .call 0 [], .call 2 [.ref 0, .ref 1]].map (pyseqOp exFuns))).map
    (fun q => (q.2, (List.range 3).map fun i => (Pyseq.getOne q.1 i).map objRes)) =
    some ([.refs [0], .refs [1], .raised (.user 7)], [some (.value 5), some (.raised 7), none]) := by decide +kernel

/-- C128, the rest: for a program without failed arguments, what any two backends give for a result is the same value or the same error. -/
theorem C128_same_partial (F : Funs) (P : List Call) (hf : Formed F 0 P) (ha : ArgsFine F [] P)
    (ws : List Nat) (ops : List Valued.Op) (m : Valued.Sys) (hc : callsMade ops = mpiCalls F [] 0 [] P)
    (hm : (Valued.Sys.init ws).run (mpiWorld F) ops = some m)
    (n : Nat) (hn : 0 < n) (acts : List Pymp.Act) (p : Pymp.State) (hc' : acts.filter pympMain = P.map (pympAct F))
    (hp : Pymp.run (objWorld F) (Pymp.State.init n) acts = some p) :
    ∃ q os, Pyseq.run (objWorld F) Pyseq.State.init (P.map (pyseqOp F)) = some (q, os) ∧
      (∀ (i r : Nat) v, (mpiPos F [] 0 [] P)[i]? = some r → (r, v) ∈ m.got → (Pyseq.getOne q i).map objRes = some (mpiRes v)) ∧
      (∀ i x, Pymp.getOne (objWorld F) p i = some x → (Pyseq.getOne q i).map objRes = some (objRes x)) ∧
      ∀ (i r : Nat) v x, (mpiPos F [] 0 [] P)[i]? = some r → (r, v) ∈ m.got → Pymp.getOne (objWorld F) p i = some x → mpiRes v = objRes x := by
  obtain ⟨h1, h2⟩ := C128_pyseq_partial F P hf
  obtain ⟨q, os, hq, hn'⟩ := h1.1 ha
  have e1 := (C128_mpi_partial F P hf ws ops m hc hm).2.1
  have e2 := (C128_pymp_partial F P hf n hn acts p hc' hp).1
  refine ⟨q, os, hq, fun i r v hi hg => by rw [h2 q os hq hn' i, e1 i r v hi hg], fun i x hg => by rw [h2 q os hq hn' i, e2 i x hg],
    fun i r v x hi hg hx => ?_⟩
  have := (e1 i r v hi hg).symm.trans (e2 i x hx)
  exact Option.some.inj this

/-- A program: 5, the two results of function 1 for it and 4, function 3 of both, function 0, function 3 of 5. -/
def exThree : List Call := [.put 5, .call 1 [.ref 0, .num 4], .call 3 [.ref 1, .ref 2], .call 0 [], .call 3 [.ref 0]]

example : Formed exFuns 0 exThree ∧ ArgsFine exFuns [] exThree := by
  constructor
  · simp [exThree, Formed, exFuns]
  · simp only [exThree, ArgsFine, resultsOf, argsOf, exFuns, Except.bind, Except.map]
    refine ⟨?_, ?_, by simp, ?_, trivial⟩ <;> intro i e h <;> simp at h
    · subst h; simp
    · rcases h with rfl | rfl <;> simp
    · subst h; simp

example : direct exFuns [] exThree = [.value 5, .value 9, .value 2, .value 14, .raised 7, .value 8] ∧
    mpiPos exFuns [] 0 [] exThree = [0, 2, 3, 5, 7, 8] := by decide +kernel

/-- On the sequential backend. -/
example : (Pyseq.run (objWorld exFuns) Pyseq.State.init (exThree.map (pyseqOp exFuns))).map
    (fun q => (List.range 6).map fun i => (Pyseq.getOne q.1 i).map objRes) =
    some [some (.value 5), some (.value 9), some (.value 2), some (.value 14), some (.raised 7), some (.value 8)] := by decide +kernel

/-- On the multiprocessing backend with two workers, of which the second starts first. -/
example : (Pymp.run (objWorld exFuns) (Pymp.State.init 2) (exThree.map (pympAct exFuns) ++
    [.take 1, .take 0, .fetch 0, .fetch 0, .fetch 0, .finish 0, .write 0, .fetch 1, .write 0, .fetch 1, .fetch 1, .finish 1, .write 1, .write 1, .write 0])).map
    (fun q => (List.range 6).map fun i => (Pymp.getOne (objWorld exFuns) q i).map objRes) =
    some [some (.value 5), some (.value 9), some (.value 2), some (.value 14), none, none] := by decide +kernel

/-- On the MPI backend with two workers; a result that is still needed elsewhere is dropped. -/
def exThreeMpi : List Valued.Op :=
  [.put (.ok 5), .put (.ok 1), .submit [.ref 1, .ref 0, .val (.ok 4)] 2 1 false, .put (.ok 3), .submit [.ref 4, .ref 2, .ref 3] 1 2 false,
   .put (.ok 0), .submit [.ref 6] 1 1 false, .submit [.ref 4, .ref 0] 1 2 false, .drop 2, .get [5, 7, 0],
   .deliver 0 2, .deliver 0 2, .deliver 0 2, .deliver 0 2, .deliver 0 2, .deliver 0 2, .deliver 0 2, .deliver 2 1, .deliver 2 1,
   .deliver 0 1, .deliver 0 1, .deliver 0 1, .deliver 1 2, .deliver 0 1, .deliver 0 1, .deliver 0 1, .deliver 1 2, .deliver 1 0, .deliver 2 0]

example : callsMade exThreeMpi = mpiCalls exFuns [] 0 [] exThree ∧
    ((Valued.Sys.init [1, 2]).run (mpiWorld exFuns) exThreeMpi).map (·.got) = some [(0, .ok 5), (7, .exc 7), (5, .ok 14)] := by decide +kernel

end Verif.Props
