import Verif.Spec.Pyseq
import Verif.Lemmas.PympWait

/-! Helper lemmas about the sequential backend. -/
namespace Verif.Pyseq
open Verif.Pymp (Val Ret Arg Target World Task Item callTarget)
open Verif.Spec.Pymp
open Verif.Spec.Pyseq

/-- What getting a stored value gives. -/
def outcome (v : Val) : Outcome :=
  match check v with
  | .ok u => .value u
  | .error e => .raised e

theorem outcome_eq (v : Val) : outcome v = asRaised v := by
  cases v <;> rfl

theorem asRaised_noExc {v : Val} (h : noExc v = true) : asRaised v = .value v := by
  cases v <;> simp_all [noExc, asRaised]

theorem shownResults_keys {outs : List Nat} {r : Ret} : (shownResults outs r).map (·.1) <+: outs := by
  cases r with
  | raise e =>
    simp only [shownResults, List.map_map]
    rw [show ((fun x : Nat × Outcome => x.1) ∘ fun o => (o, Outcome.raised e)) = id from rfl, List.map_id]
    exact List.prefix_refl _
  | ok v items =>
    match outs, items with
    | [], _ => simp [shownResults]
    | [o], _ => simp [shownResults]
    | a :: b :: outs, some l => exact zip_keys _ _
    | a :: b :: outs, none => simp [shownResults]

theorem shownEval_val_other {W : World} {E : Env} {t : Task} {id : Nat} (h : id ∉ t.outs) : (shownEval W E (.task t)).val id = E.val id := by
  simp only [shownEval]
  split
  · rfl
  · exact add_other (by simpa using h)
  · exact add_other fun hc => h (shownResults_keys.sublist.subset hc)

theorem shown_stable {W : World} {lo hi : Nat} {l : List Item} (h : Span lo l hi) :
    ∀ (E : Env) (id : Nat), id < lo → (l.foldl (shownEval W) E).val id = E.val id := by
  induction h with
  | nil => intro E id _; rfl
  | skip hle _ ih => intro E id hid; exact ih E id (by omega)
  | put _ ih =>
    intro E id hid
    rw [List.foldl_cons, ih _ id (by omega)]
    exact add_other (by simp; omega)
  | task h1 h2 h3 h4 _ ih =>
    intro E id hid
    rw [List.foldl_cons, ih _ id (by omega)]
    exact shownEval_val_other fun hc => by have := (h2 id hc).1; omega

theorem shown_below {W : World} {items ext : List Item} {lo hi id : Nat} (h : Span lo ext hi) (hid : id < lo) :
    (shown W (items ++ ext)).val id = (shown W items).val id := by
  simp only [shown, List.foldl_append]
  exact shown_stable h _ id hid

theorem shown_put {W : World} {pre post : List Item} {id hi : Nat} {v : Val} (h : Span 0 (pre ++ .put id v :: post) hi) :
    (shown W (pre ++ .put id v :: post)).val id = some (asRaised v) := by
  obtain ⟨mid, h1, h2⟩ := h.split
  simp only [shown, List.foldl_append, List.foldl_cons]
  rw [shown_stable h2.put_inv _ id (by omega)]
  simp [shownEval, add]

theorem shown_snoc {W : World} (l : List Item) (x : Item) : shown W (l ++ [x]) = shownEval W (shown W l) x := by
  simp [shown]

theorem shownResults_mem {outs : List Nat} {r : Ret} {E : Nat → Option Outcome} {o : Nat} {c : Outcome}
    (hn : outs.Nodup) (h : (o, c) ∈ shownResults outs r) : add E (shownResults outs r) o = some c :=
  Verif.Spec.Pymp.add_mem (p := (o, c)) (hn.sublist shownResults_keys.sublist) h

theorem shownResults_noExc {outs : List Nat} {r : Ret} (h : NoExcRet r) : shownResults outs r = results outs r := by
  cases r with
  | raise e => rfl
  | ok v items =>
    obtain ⟨h1, h2⟩ := h v items rfl
    match outs, items with
    | [], _ => simp [shownResults, results]
    | [o], _ => simp [shownResults, results, asRaised_noExc h1]
    | a :: b :: outs, none => rfl
    | a :: b :: outs, some l =>
      simp only [shownResults, results]
      rw [List.map_congr_left fun u hu => asRaised_noExc (h2 l rfl u hu)]

/-- Without exception objects as values the two meanings are the same. -/
theorem shown_noExc {W : World} (hW : NoExcWorld W) {items : List Item} (hp : ∀ id v, Item.put id v ∈ items → noExc v = true) :
    shown W items = meaning W items := by
  have happ : ∀ hist args t, NoExcRet (apply W hist args t) := by
    intro hist args t
    cases t with
    | fn f => exact hW.call f args
    | method a c m => exact hW.method c _ m args
  have key : ∀ (l : List Item) (E : Env), (∀ id v, Item.put id v ∈ l → noExc v = true) →
      l.foldl (shownEval W) E = l.foldl (eval W) E := by
    intro l
    induction l with
    | nil => intro E _; rfl
    | cons x l ih =>
      intro E h
      have hx : shownEval W E x = eval W E x := by
        cases x with
        | put id v => simp only [shownEval, eval, asRaised_noExc (h id v List.mem_cons_self)]
        | task t =>
          simp only [shownEval, eval]
          rcases resolve E.val t.args with _ | (e | vs)
          · rfl
          · rfl
          · simp only [shownResults_noExc (happ _ _ _)]
      rw [List.foldl_cons, List.foldl_cons, hx]
      exact ih _ fun id v hm => h id v (List.mem_cons_of_mem _ hm)
  exact key items Env.empty hp

/-- The values put are those of the calls of the program. -/
theorem puts_calls : ∀ (ops : List Op) (os : List Out) (k : Nat) (classes : List Nat) (id : Nat) (v : Val),
    Item.put id v ∈ calls k classes ops os → Op.put v ∈ ops
  | [], _, _, _, _, _, h => by simp [calls] at h
  | _ :: _, [], _, _, _, _, h => by simp [calls] at h
  | op :: ops, o :: os, k, classes, id, v, h => by
    simp only [calls, List.mem_append] at h
    rcases h with h | h
    · refine List.mem_cons.2 (Or.inl ?_)
      cases op with
      | put u =>
        cases o with
        | refs ids => simp only [item, List.mem_map, Item.put.injEq] at h; obtain ⟨_, _, _, rfl⟩ := h; rfl
        | raised e => simp [item] at h
      | submit f args n =>
        cases o with
        | refs ids => simp [item] at h
        | raised e => cases e <;> simp [item] at h
      | create cls => simp [item] at h
      | method a m args n =>
        cases o with
        | refs ids => simp [item] at h
        | raised e => cases e <;> simp [item] at h
    · exact List.mem_cons_of_mem _ (puts_calls ops os _ _ id v h)

/-- The store and the actors are as the sequential meaning says. -/
structure Inv (W : World) (s : State) : Prop where
  span : Span 0 s.items s.store.length
  vals : ∀ x ∈ s.items, ∀ id ∈ x.refs, ∃ v, s.store[id]? = some v ∧ (shown W s.items).val id = some (outcome v)
  hist : ∀ (a : Nat) (x : Nat × List (Nat × List Val)), s.actors[a]? = some x → x.2 = (shown W s.items).hist a
  new : ∀ a, s.actors.length ≤ a → (shown W s.items).hist a = []

theorem inv_init (W : World) : Inv W State.init :=
  ⟨.nil, by simp [State.init], by simp [State.init], fun _ _ => rfl⟩

theorem known_iff {s : State} {args : List Arg} (h : known s args = true) : ∀ id, Arg.ref id ∈ args → ∃ x ∈ s.items, id ∈ x.refs := by
  intro id hid
  simp only [known, List.all_eq_true] at h
  simpa using h _ hid

theorem materialize_resolve {W : World} {s : State} (h : Inv W s) : ∀ {args : List Arg}, known s args = true →
    materialize s args = resolve (shown W s.items).val args := by
  intro args
  induction args with
  | nil => intro _; rfl
  | cons a args ih =>
    intro hk
    have hk' : known s args = true := by
      simp only [known, List.all_cons, Bool.and_eq_true] at hk ⊢
      exact hk.2
    have ih := ih hk'
    cases a with
    | lit v =>
      simp only [materialize, resolve, ih]
      rcases resolve (shown W s.items).val args with _ | (_ | _) <;> rfl
    | ref id =>
      obtain ⟨x, hx, hm⟩ := known_iff hk id (by simp)
      obtain ⟨v, h1, h2⟩ := h.vals x hx id hm
      simp only [materialize, resolve, ih, getOne, h1, h2, Option.map_some, outcome]
      cases check v <;> rfl

theorem vals_grow {W : World} {s : State} {ext : List Item} {more : List Val} {hi : Nat} (h : Inv W s) (hx : Span s.store.length ext hi) :
    ∀ x ∈ s.items, ∀ id ∈ x.refs, ∃ v, (s.store ++ more)[id]? = some v ∧ (shown W (s.items ++ ext)).val id = some (outcome v) := by
  intro x hxm id hid
  have hlt := h.span.refs_lt hxm id hid
  obtain ⟨v, h1, h2⟩ := h.vals x hxm id hid
  refine ⟨v, by rw [List.getElem?_append_left hlt]; exact h1, ?_⟩
  rw [shown_below hx hlt]
  exact h2

theorem record_getElem (actors : List (Nat × List (Nat × List Val))) (args : List Val) (t : Target) (a : Nat) :
    (record actors args t)[a]? = (actors[a]?).map fun x =>
      match t with
      | .fn _ => x
      | .method b _ m => if b = a then (x.1, x.2 ++ [(m, args)]) else x := by
  cases t with
  | fn f => simp [record]
  | method b c m =>
    simp only [record, List.getElem?_modify]
    cases actors[a]? with
    | none => rfl
    | some x => by_cases h : b = a <;> simp [h]

theorem record_length (actors : List (Nat × List (Nat × List Val))) (args : List Val) (t : Target) :
    (record actors args t).length = actors.length := by
  cases t <;> simp [record]

/-- What a successful call puts into the store is what the meaning says. -/
theorem produced_results {n : Nat} {r : Ret} {ids : List Nat} (hl : ids.length = n) (hok : (produced n r).2 = true) :
    (produced n r).1.length = n ∧ shownResults ids r = ids.zip ((produced n r).1.map outcome) := by
  cases r with
  | raise e =>
    simp only [produced, List.length_replicate, true_and, shownResults, List.map_replicate]
    subst hl
    induction ids with
    | nil => rfl
    | cons i ids ih =>
      simp only [List.map_cons, List.length_cons, List.replicate_succ, List.zip_cons_cons]
      rw [ih rfl]; rfl
  | ok v items =>
    match n, ids, hl with
    | 0, [], _ => simp [produced, shownResults]
    | 1, [i], _ => simp [produced, shownResults, outcome_eq]
    | n + 2, a :: b :: ids, hl =>
      cases items with
      | none => simp [produced] at hok
      | some l =>
        simp only [produced, Option.getD_some, decide_eq_true_eq] at hok
        have hmap : (l.take (n + 2)).map outcome = (l.take (n + 2)).map asRaised :=
          List.map_congr_left fun u _ => outcome_eq u
        refine ⟨by simp [produced]; omega, ?_⟩
        simp only [produced, shownResults, Option.getD_some]
        rw [hmap]
        have : ∀ (xs : List Nat) (ys : List Val), xs.zip (ys.map asRaised) = xs.zip ((ys.take xs.length).map asRaised) := by
          intro xs
          induction xs with
          | nil => intro ys; simp
          | cons x xs ih =>
            intro ys
            cases ys with
            | nil => simp
            | cons y ys => simp only [List.map_cons, List.zip_cons_cons, List.length_cons, List.take_succ_cons]; rw [ih ys]
        rw [this (a :: b :: ids) l, hl]

theorem hist_eq {W : World} {s : State} (h : Inv W s) (args : List Val) (t : Target) :
    (∀ a c m, t = .method a c m → ∃ x, s.actors[a]? = some x) →
    callTarget W (histOf s.actors t) args t = apply W (shown W s.items).hist args t := by
  intro hk
  cases t with
  | fn f => rfl
  | method a c m =>
    obtain ⟨x, hx⟩ := hk a c m rfl
    simp [callTarget, apply, histOf, hx, h.hist a x hx]

theorem newIds_span {s : State} {t : Task} {n hi : Nat} {b : Bool} (ho : t.outs = if b then (List.range n).map (s.store.length + ·) else [])
    (ha : ∀ id, Arg.ref id ∈ t.args → id < s.store.length) (hhi : (b = true → s.store.length + n = hi) ∧ s.store.length ≤ hi) :
    Span s.store.length [.task t] hi := by
  cases b with
  | true =>
    rw [if_pos rfl] at ho
    have e := hhi.1 rfl
    subst e
    refine .task ha ?_ (by omega) ?_ .nil
    · intro o hm
      rw [ho, List.mem_map] at hm
      obtain ⟨i, hi, rfl⟩ := hm
      rw [List.mem_range] at hi
      omega
    · rw [ho, List.Nodup, List.pairwise_map]
      exact List.nodup_range.imp fun h => by omega
  | false =>
    rw [if_neg (by simp)] at ho
    refine .task ha (by simp [ho]) (Nat.le_refl _) (by simp [ho]) (.skip hhi.2 .nil)

theorem inv_submit {W : World} {s s' : State} {target : Target} {args : List Arg} {n : Nat} {o : Out} (h : Inv W s)
    (hk : known s args = true) (hm : ∀ a c m, target = .method a c m → ∃ x, s.actors[a]? = some x)
    (hs : submit W s target args n = some (s', o)) : Inv W s' := by
  have hargs : ∀ id, Arg.ref id ∈ args → id < s.store.length := by
    intro id hid
    obtain ⟨x, hx, hxm⟩ := known_iff hk id hid
    exact h.span.refs_lt hx id hxm
  simp only [submit] at hs
  rw [materialize_resolve h hk] at hs
  split at hs
  · cases hs
  · simp only [Option.some.injEq, Prod.mk.injEq] at hs
    rw [← hs.1]; exact h
  · rename_i vs hres
    rw [hist_eq h vs target hm] at hs
    generalize hr : apply W (shown W s.items).hist vs target = r at hs
    simp only [Option.some.injEq, Prod.mk.injEq] at hs
    obtain ⟨rfl, -⟩ := hs
    generalize hids : (List.range n).map (s.store.length + ·) = ids
    have hidl : ids.length = n := by rw [← hids]; simp
    generalize htask : (⟨s.items.length, target, args, if (produced n r).2 = true then ids else []⟩ : Task) = t
    have hto : t.outs = if (produced n r).2 = true then ids else [] := by rw [← htask]
    have hta : t.args = args := by rw [← htask]
    have htt : t.target = target := by rw [← htask]
    have hlen : ((produced n r).2 = true → s.store.length + n = (s.store ++ (produced n r).1).length) ∧
        s.store.length ≤ (s.store ++ (produced n r).1).length := by
      constructor
      · intro hb
        rw [List.length_append, (produced_results hidl hb).1]
      · simp
    have hspan := newIds_span (t := t) (b := (produced n r).2) (hi := (s.store ++ (produced n r).1).length) (by rw [hto, hids])
      (by rw [hta]; exact hargs) hlen
    have heval : shownEval W (shown W s.items) (.task t) =
        ⟨add (shown W s.items).val (shownResults t.outs r), remember (shown W s.items).hist vs target⟩ := by
      simp only [shownEval, hta, hres, htt, hr]
    refine ⟨h.span.append hspan, ?_, ?_, ?_⟩
    · intro x hx id hid
      simp only [List.mem_append, List.mem_singleton] at hx
      rcases hx with hx | rfl
      · exact vals_grow h hspan x hx id hid
      · simp only [Item.refs] at hid
        rw [hto] at hid
        split at hid
        · rename_i hb
          obtain ⟨p1, p2⟩ := produced_results hidl hb
          rw [← hids, List.mem_map] at hid
          obtain ⟨i, hi, rfl⟩ := hid
          rw [List.mem_range] at hi
          have hget : (s.store ++ (produced n r).1)[s.store.length + i]? = some (produced n r).1[i] := by
            rw [List.getElem?_append_right (by omega), show s.store.length + i - s.store.length = i by omega,
              List.getElem?_eq_getElem (by omega)]
          refine ⟨_, hget, ?_⟩
          simp only
          rw [shown_snoc, heval, hto, if_pos hb]
          have hmem : (s.store.length + i, outcome (produced n r).1[i]) ∈ shownResults ids r := by
            rw [p2, List.mem_iff_getElem?]
            refine ⟨i, ?_⟩
            rw [List.getElem?_zip_eq_some]
            refine ⟨by rw [← hids]; simp [hi], by rw [List.getElem?_map, List.getElem?_eq_getElem (by omega)]; rfl⟩
          have hnd : ids.Nodup := by
            rw [← hids, List.Nodup, List.pairwise_map]
            exact List.nodup_range.imp fun h => by omega
          exact shownResults_mem hnd hmem
        · simp at hid
    · intro a x hx
      simp only at hx ⊢
      rw [record_getElem] at hx
      obtain ⟨y, hy, rfl⟩ := Option.map_eq_some_iff.1 hx
      rw [shown_snoc, heval]
      have := h.hist a y hy
      cases target with
      | fn f => exact this
      | method b c m =>
        by_cases e : b = a
        · subst e; simp [remember, this]
        · have e' : ¬ a = b := fun h => e h.symm
          simp [remember, e, e', this]
    · intro a ha
      simp only at ha ⊢
      rw [record_length] at ha
      rw [shown_snoc, heval]
      have := h.new a ha
      cases target with
      | fn f => exact this
      | method b c m =>
        obtain ⟨x, hx⟩ := hm b c m rfl
        have hb := (List.getElem?_eq_some_iff.1 hx).1
        have e' : ¬ a = b := by omega
        simp [remember, e', this]

theorem inv_step {W : World} {s s' : State} {op : Op} {o : Out} (h : Inv W s) (hs : step W s op = some (s', o)) : Inv W s' := by
  cases op with
  | put v =>
    simp only [step, Option.some.injEq, Prod.mk.injEq] at hs
    obtain ⟨rfl, -⟩ := hs
    have hx : Span s.store.length [Item.put s.store.length v] (s.store.length + 1) := .put .nil
    refine ⟨?_, ?_, ?_, ?_⟩
    · simp only [List.length_append, List.length_singleton]
      exact h.span.append hx
    · intro x hxm id hid
      simp only [List.mem_append, List.mem_singleton] at hxm
      rcases hxm with hxm | rfl
      · exact vals_grow h hx x hxm id hid
      · simp only [Item.refs, List.mem_singleton] at hid
        subst hid
        refine ⟨v, by simp, ?_⟩
        rw [shown_put (post := []) (h.span.append hx), outcome_eq]
    · intro a x hx
      simp only
      rw [shown_snoc]
      exact h.hist a x hx
    · intro a ha
      simp only
      rw [shown_snoc]
      exact h.new a ha
  | submit f args n =>
    simp only [step] at hs
    split at hs
    · rename_i hk
      exact inv_submit h hk (by simp) hs
    · cases hs
  | create cls =>
    simp only [step, Option.some.injEq, Prod.mk.injEq] at hs
    obtain ⟨rfl, -⟩ := hs
    refine ⟨h.span, h.vals, ?_, ?_⟩
    · intro a x hx
      simp only at hx ⊢
      by_cases hal : a < s.actors.length
      · rw [List.getElem?_append_left hal] at hx
        exact h.hist a x hx
      · rw [List.getElem?_append_right (by omega)] at hx
        have := List.mem_of_getElem? hx
        simp only [List.mem_singleton] at this
        subst this
        exact (h.new a (by omega)).symm
    · intro a ha
      simp only [List.length_append] at ha
      exact h.new a (by omega)
  | method a m args n =>
    simp only [step] at hs
    split at hs
    · cases hs
    · rename_i x hx
      split at hs
      · rename_i hk
        refine inv_submit h hk ?_ hs
        intro a' c m' e
        simp only [Target.method.injEq] at e
        obtain ⟨rfl, -, -⟩ := e
        exact ⟨x, hx⟩
      · cases hs

theorem inv_run {W : World} {ops : List Op} : ∀ {s s' : State} {os : List Out},
    Inv W s → run W s ops = some (s', os) → Inv W s' := by
  induction ops with
  | nil =>
    intro s s' os h hr
    simp only [run, Option.some.injEq, Prod.mk.injEq] at hr
    rw [← hr.1]; exact h
  | cons op ops ih =>
    intro s s' os h hr
    simp only [run] at hr
    split at hr
    · cases hr
    · rename_i s1 o hs1
      split at hr
      · cases hr
      · rename_i s2 os' hr2
        simp only [Option.some.injEq, Prod.mk.injEq] at hr
        rw [← hr.1]
        exact ih (inv_step h hs1) hr2

theorem items_submit {W : World} {s s' : State} {target : Target} {args : List Arg} {n : Nat} {o : Out}
    (hs : submit W s target args n = some (s', o)) :
    s'.actors.map (·.1) = s.actors.map (·.1) ∧
    ((∃ ids, o = .refs ids ∧ s'.items = s.items ++ [.task ⟨s.items.length, target, args, ids⟩]) ∨
      (o = .raised .index ∧ s'.items = s.items ++ [.task ⟨s.items.length, target, args, []⟩]) ∨
      (∃ e, o = .raised (.user e) ∧ s'.items = s.items)) := by
  simp only [submit] at hs
  split at hs
  · cases hs
  · simp only [Option.some.injEq, Prod.mk.injEq] at hs
    obtain ⟨rfl, rfl⟩ := hs
    exact ⟨rfl, .inr (.inr ⟨_, rfl, rfl⟩)⟩
  · rename_i vs _
    simp only [Option.some.injEq, Prod.mk.injEq] at hs
    obtain ⟨rfl, rfl⟩ := hs
    refine ⟨?_, ?_⟩
    · apply List.ext_getElem?
      intro a
      simp only [List.getElem?_map, record_getElem, Option.map_map]
      congr 1
      funext x
      cases target with
      | fn f => rfl
      | method b c m => by_cases e : b = a <;> simp [e]
    · cases (produced n (callTarget W (histOf s.actors target) vs target)).2 <;> simp

theorem items_step {W : World} {s s' : State} {op : Op} {o : Out} (hs : step W s op = some (s', o)) :
    s'.items = s.items ++ item s.items.length (s.actors.map (·.1)) op o ∧
    s'.actors.map (·.1) = classesAfter (s.actors.map (·.1)) op := by
  cases op with
  | put v =>
    simp only [step, Option.some.injEq, Prod.mk.injEq] at hs
    obtain ⟨rfl, rfl⟩ := hs
    exact ⟨rfl, rfl⟩
  | create cls =>
    simp only [step, Option.some.injEq, Prod.mk.injEq] at hs
    obtain ⟨rfl, rfl⟩ := hs
    simp [item, classesAfter]
  | submit f args n =>
    simp only [step] at hs
    split at hs
    · obtain ⟨h1, h2⟩ := items_submit hs
      refine ⟨?_, h1⟩
      rcases h2 with ⟨ids, rfl, h⟩ | ⟨rfl, h⟩ | ⟨e, rfl, h⟩ <;> simp [h, item]
    · cases hs
  | method a m args n =>
    simp only [step] at hs
    split at hs
    · cases hs
    · rename_i x hx
      split at hs
      · obtain ⟨h1, h2⟩ := items_submit hs
        refine ⟨?_, h1⟩
        rcases h2 with ⟨ids, rfl, h⟩ | ⟨rfl, h⟩ | ⟨e, rfl, h⟩ <;> simp [h, item, hx]
      · cases hs

theorem items_run {W : World} {ops : List Op} : ∀ {s s' : State} {os : List Out}, run W s ops = some (s', os) →
    s'.items = s.items ++ calls s.items.length (s.actors.map (·.1)) ops os := by
  induction ops with
  | nil =>
    intro s s' os hr
    simp only [run, Option.some.injEq, Prod.mk.injEq] at hr
    rw [← hr.1]; simp [calls]
  | cons op ops ih =>
    intro s s' os hr
    simp only [run] at hr
    split at hr
    · cases hr
    · rename_i s1 o hs1
      split at hr
      · cases hr
      · rename_i s2 os' hr2
        simp only [Option.some.injEq, Prod.mk.injEq] at hr
        obtain ⟨rfl, rfl⟩ := hr
        obtain ⟨h1, h2⟩ := items_step hs1
        rw [ih hr2, h1, h2]
        simp only [calls, List.append_assoc, List.length_append]

theorem refs_run {W : World} {ops : List Op} : ∀ {s s' : State} {os : List Out} {ids : List Nat} {id : Nat}, run W s ops = some (s', os) →
    Out.refs ids ∈ os → id ∈ ids → ∃ x ∈ s'.items, id ∈ x.refs := by
  induction ops with
  | nil =>
    intro s s' os ids id hr hm
    simp only [run, Option.some.injEq, Prod.mk.injEq] at hr
    rw [← hr.2] at hm; simp at hm
  | cons op ops ih =>
    intro s s' os ids id hr hm hid
    simp only [run] at hr
    split at hr
    · cases hr
    · rename_i s1 o hs1
      split at hr
      · cases hr
      · rename_i s2 os' hr2
        simp only [Option.some.injEq, Prod.mk.injEq] at hr
        obtain ⟨rfl, rfl⟩ := hr
        rcases List.mem_cons.1 hm with e | hm
        · have hi := (items_step hs1).1
          have : ∃ x ∈ s1.items, id ∈ x.refs := by
            rw [hi, ← e]
            cases op with
            | put v => exact ⟨.put id v, by simp [item, hid], by simp [Item.refs]⟩
            | create cls =>
              simp only [step, Option.some.injEq, Prod.mk.injEq] at hs1
              rw [← hs1.2] at e
              simp only [Out.refs.injEq] at e
              subst e; simp at hid
            | submit f args n => exact ⟨_, by simp [item]; exact Or.inr rfl, by simpa [Item.refs] using hid⟩
            | method a m args n => exact ⟨_, by simp [item]; exact Or.inr rfl, by simpa [Item.refs] using hid⟩
          obtain ⟨x, hx, hxm⟩ := this
          refine ⟨x, ?_, hxm⟩
          rw [items_run hr2]
          exact List.mem_append_left _ hx
        · exact ih hr2 hm hid

end Verif.Pyseq
