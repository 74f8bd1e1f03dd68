import Verif.Lemmas.ValuedRight
import Verif.Props.NoHang

/-! Properties of the model of all processes with values and cleanups (C127). -/
namespace Verif.Props
open Verif.Valued Verif.Spec.Valued

/-! ## C127 results do not depend on the schedule, whatever is cleaned up -/

/-- C127: everything that `get` gives is what the same program gives if every call is made directly, whichever workers are
chosen, in whichever order messages arrive, and whatever is dropped and cleaned up in between. -/
theorem C127_right_values (W : World) (ws : List Nat) (ops : List Op) (s : Sys) (hr : (Sys.init ws).run W ops = some s)
    (i : Nat) (v : Val) (h : (i, v) ∈ s.got) : (values W [] ops)[i]? = some v :=
  (run_ok ops (init_ok W ws) hr).got (i, v) h

/-- C127, inside: every value in the store of any process or on the way between processes is the right one. -/
theorem C127_right_everywhere (W : World) (ws : List Nat) (ops : List Op) (s : Sys) (hr : (Sys.init ws).run W ops = some s) :
    (∀ i v, (i, v) ∈ s.stored → (values W [] ops)[i]? = some v) ∧
    (∀ w i v, (i, v) ∈ (s.worker w).data → (values W [] ops)[i]? = some v) ∧
    ∀ src d i v, (src, d, Msg.data i v) ∈ s.net → (values W [] ops)[i]? = some v := by
  have h := run_ok ops (init_ok W ws) hr
  exact ⟨fun i v hx => h.stored (i, v) hx, fun w i v hx => (h.worker w).data (i, v) hx, fun src d i v hx => h.net _ hx⟩

/-- The calls that make references, without the workers chosen for them. -/
def callsMade (ops : List Op) : List (Val ⊕ (List Arg × Nat)) :=
  ops.filterMap fun
    | .put v => some (.inl v)
    | .submit args n _ _ => some (.inr (args, n))
    | _ => none

theorem values_calls (W : World) (ops ops' : List Op) (h : callsMade ops = callsMade ops') : ∀ env, values W env ops = values W env ops' := by
  have key : ∀ (ops : List Op) (env : List Val), values W env ops =
      (callsMade ops).foldl (fun env c => match c with | .inl v => env ++ [v] | .inr (args, n) => env ++ directly W (args.map (argVal env)) n) env := by
    intro ops
    induction ops with
    | nil => intro env; rfl
    | cons op ops ih =>
      intro env
      rw [values_cons, ih]
      cases op <;> rfl
  intro env
  rw [key, key, h]

/-- C127, two runs: two runs of the same calls, on any workers, with any drops, cleanups and orders of arrival, give the same
values. -/
theorem C127_same_program (W : World) (ws ws' : List Nat) (ops ops' : List Op) (s s' : Sys) (hc : callsMade ops = callsMade ops')
    (hr : (Sys.init ws).run W ops = some s) (hr' : (Sys.init ws').run W ops' = some s') (i : Nat) (v v' : Val)
    (h : (i, v) ∈ s.got) (h' : (i, v') ∈ s'.got) : v = v' := by
  have e := C127_right_values W ws ops s hr i v h
  have e' := C127_right_values W ws' ops' s' hr' i v' h'
  rw [values_calls W ops ops' hc] at e
  exact Option.some.inj (e.symm.trans e')

/-- Every reference that a `get` was called with has been given a value or is waited for. -/
theorem got_or_waits {W : World} (ops : List Op) : ∀ {s s' : Sys} (P : Nat → Prop), (∀ i, P i → i ∈ s.waiting ∨ ∃ v, (i, v) ∈ s.got) →
    s.run W ops = some s' → ∀ i, (P i ∨ ∃ ids, Op.get ids ∈ ops ∧ i ∈ ids) → i ∈ s'.waiting ∨ ∃ v, (i, v) ∈ s'.got := by
  induction ops with
  | nil =>
    intro s s' P h hr i hi
    simp only [Sys.run, Option.some.injEq] at hr
    subst hr
    rcases hi with hi | ⟨ids, hx, -⟩
    · exact h i hi
    · cases hx
  | cons op ops ih =>
    intro s s' P h hr i hi
    obtain ⟨s1, h1, h2⟩ := Option.bind_eq_some_iff.1 hr
    refine ih (s := s1) (fun j => P j ∨ ∃ ids, op = .get ids ∧ j ∈ ids) ?_ h2 i ?_
    · intro j hj
      cases op with
      | put v =>
        simp only [Sys.step] at h1
        split at h1
        · cases h1
        · cases h1
          rcases hj with hj | ⟨_, e, -⟩
          · exact h j hj
          · cases e
      | drop k =>
        simp only [Sys.step] at h1
        split at h1
        · cases h1
        · cases h1
          rcases hj with hj | ⟨_, e, -⟩
          · exact h j hj
          · cases e
      | submit args n d m =>
        simp only [Sys.step] at h1
        split at h1
        · cases h1
        · have hp : ∀ (l : List Nat) (u : Sys), (l.foldl (Sys.push d) u).waiting = u.waiting ∧ (l.foldl (Sys.push d) u).got = u.got := by
            intro l
            induction l with
            | nil => intro u; exact ⟨rfl, rfl⟩
            | cons a l ihl =>
              intro u
              rw [List.foldl_cons, (ihl _).1, (ihl _).2]
              unfold Sys.push
              split
              · split <;> exact ⟨rfl, rfl⟩
              · split <;> exact ⟨rfl, rfl⟩
          cases h1
          rcases hj with hj | ⟨_, e, -⟩
          · dsimp only
            rw [(hp _ _).1, (hp _ _).2]
            exact h j hj
          · cases e
      | get ids =>
        simp only [Sys.step] at h1
        split at h1
        · cases h1
        · rename_i hc
          simp only [not_or, Classical.not_not] at hc
          cases h1
          rcases hj with hj | ⟨_, e, hj⟩
          · rcases h j hj with hw | ⟨v, hv⟩
            · rw [hc.1] at hw; cases hw
            · exact Or.inr ⟨v, List.mem_append_left _ hv⟩
          · cases e
            cases hl : s.stored.lookup j with
            | none => exact Or.inl (List.mem_filter.2 ⟨hj, by simp [hl]⟩)
            | some v => exact Or.inr ⟨v, List.mem_append_right _ (List.mem_filterMap.2 ⟨j, hj, by simp [hl]⟩)⟩
      | deliver src d =>
        have hPj : P j := by
          rcases hj with hj | ⟨_, e, -⟩
          · exact hj
          · cases e
        simp only [Sys.step] at h1
        split at h1
        · cases h1
        · split at h1
          · split at h1
            · rename_i k _ _
              cases h1
              rcases h j hPj with hw | ⟨v, hv⟩
              · by_cases e : j = k
                · subst e
                  exact Or.inr ⟨_, List.mem_append_right _ (List.mem_singleton.2 rfl)⟩
                · exact Or.inl ((List.mem_erase_of_ne e).2 hw)
              · exact Or.inr ⟨v, List.mem_append_left _ hv⟩
            · cases h1
          · split at h1
            · cases h1
            · cases h1
              exact h j hPj
      | report =>
        simp only [Sys.step] at h1
        split at h1
        · cases h1
        · cases h1
          rcases hj with hj | ⟨_, e, -⟩
          · exact h j hj
          · cases e
      | cleanup =>
        simp only [Sys.step] at h1
        split at h1
        · cases h1
        · cases h1
          rcases hj with hj | ⟨_, e, -⟩
          · exact h j hj
          · cases e
    · rcases hi with hi | ⟨ids, hx, hi⟩
      · exact Or.inl (Or.inl hi)
      · rcases List.mem_cons.1 hx with e | hx
        · exact Or.inl (Or.inr ⟨ids, e.symm, hi⟩)
        · exact Or.inr ⟨ids, hx, hi⟩

/-- Something that was sent arrives; the program does nothing. -/
def Comes (op : Op) : Prop := (∃ src d, op = .deliver src d) ∨ op = .report

/-- C127, the end: without methods, if no `get` names a reference twice, only so many messages can arrive while the program does
nothing, and when no more can arrive every reference that any `get` was called with has been given its right value. -/
theorem C127_all_gets_answered (W : World) (ws : List Nat) (ops : List Op) (s : Sys) (h0 : 0 ∉ ws) (hn : ws.Nodup)
    (hm : ∀ args n d, Op.submit args n d true ∉ ops) (hg : ∀ ids, Op.get ids ∈ ops → ids.Nodup)
    (hr : (Sys.init ws).run W ops = some s) :
    (∃ N, ∀ ds s', (∀ op ∈ ds, Comes op) → s.run W ds = some s' → ds.length ≤ N) ∧
    ∀ ds s', (∀ op ∈ ds, Comes op) → s.run W ds = some s' → (∀ op, Comes op → s'.step W op = none) →
      ∀ ids i, Op.get ids ∈ ops → i ∈ ids → ∃ v, (i, v) ∈ s'.got ∧ (values W [] ops)[i]? = some v := by
  have hb : (Lifetime.Sys.init ws).run (ops.map Op.bare) = some s.bare := by
    have := bare_run W ops (Sys.init ws)
    rw [hr] at this
    exact this.symm
  have hnm : Lifetime.NoMethods (ops.map Op.bare) := by
    intro args n d hx
    obtain ⟨op, ho, e⟩ := List.mem_map.1 hx
    cases op with
    | submit a k c m =>
      simp only [Op.bare, Lifetime.Op.submit.injEq] at e
      obtain ⟨-, rfl, rfl, rfl⟩ := e
      exact hm _ _ _ ho
    | _ => cases e
  have hgo : Lifetime.GetsOnce (ops.map Op.bare) := by
    intro ids hx
    obtain ⟨op, ho, e⟩ := List.mem_map.1 hx
    cases op with
    | get l =>
      simp only [Op.bare, Lifetime.Op.get.injEq] at e
      subst e
      exact hg _ ho
    | _ => cases e
  obtain ⟨⟨N, hN⟩, hend⟩ := C98_no_hang_partial ws (ops.map Op.bare) s.bare h0 hn hnm hgo hb
  have hcomes : ∀ ds : List Op, (∀ op ∈ ds, Comes op) → ∀ op ∈ ds.map Op.bare, Lifetime.Arrives op := by
    intro ds hd op ho
    obtain ⟨o, hx, rfl⟩ := List.mem_map.1 ho
    rcases hd o hx with ⟨a, b, rfl⟩ | rfl
    · exact Or.inl ⟨a, b, rfl⟩
    · exact Or.inr rfl
  have hbs : ∀ ds s', s.run W ds = some s' → s.bare.run (ds.map Op.bare) = some s'.bare := by
    intro ds s' h
    have := bare_run W ds s
    rw [h] at this
    exact this.symm
  refine ⟨⟨N, ?_⟩, ?_⟩
  · intro ds s' hd h
    have := hN _ _ (hcomes ds hd) (hbs ds s' h)
    simpa using this
  · intro ds s' hd h hstop ids i hx hi
    have hw := (hend _ _ (hcomes ds hd) (hbs ds s' h) (by
      rintro op (⟨a, b, rfl⟩ | rfl)
      · have := bare_step W s' (.deliver a b)
        rw [hstop _ (Or.inl ⟨a, b, rfl⟩)] at this
        exact this.symm
      · have := bare_step W s' .report
        rw [hstop _ (Or.inr rfl)] at this
        exact this.symm)).1
    have hw' : s'.waiting = [] := hw
    have hall : (Sys.init ws).run W (ops ++ ds) = some s' := by
      have : ∀ (as bs : List Op) (u : Sys), u.run W (as ++ bs) = (u.run W as).bind fun u' => u'.run W bs := by
        intro as bs
        induction as with
        | nil => intro u; rfl
        | cons a as ih =>
          intro u
          simp only [List.cons_append, Sys.run]
          cases u.step W a with
          | none => rfl
          | some u' => exact ih u'
      rw [this, hr]; exact h
    rcases got_or_waits (ops ++ ds) (fun _ => False) (by intro i hf; cases hf) hall i (Or.inr ⟨ids, List.mem_append_left _ hx, hi⟩) with g | ⟨v, hv⟩
    · rw [hw'] at g; cases g
    · refine ⟨v, hv, ?_⟩
      have e := C127_right_values W ws _ s' hall i v hv
      rw [values_calls W (ops ++ ds) ops] at e
      · exact e
      · unfold callsMade
        rw [List.filterMap_append]
        have : ds.filterMap (fun (op : Op) => (match op with | .put v => some (.inl v) | .submit args n _ _ => some (.inr (args, n)) | _ => none : Option (Val ⊕ (List Arg × Nat)))) = [] := by
          rw [List.filterMap_eq_nil_iff]
          intro op ho
          rcases hd op ho with ⟨a, b, rfl⟩ | rfl <;> rfl
        exact (congrArg _ this).trans (List.append_nil _)

/-- Functions: 0 adds its arguments, 1 raises exception 7. -/
def exSums : World := ⟨fun
  | 0 :: args => .ok fun k => args.sum + k
  | _ => .error 7⟩

/-- A chain of sums over two workers, whose first links are dropped and cleaned up before the end is fetched, and a failing call. -/
def exSumChain : List Op :=
  [.put (.ok 0), .put (.ok 5), .submit [.ref 0, .ref 1, .val (.ok 3)] 2 1 false, .deliver 0 1, .deliver 0 1, .deliver 0 1, .report,
   .submit [.ref 0, .ref 2, .ref 3] 1 2 false, .deliver 0 2, .deliver 0 2, .deliver 0 2, .deliver 0 2, .drop 1, .drop 2, .deliver 2 1, .deliver 2 1, .deliver 1 2, .deliver 1 2, .report, .cleanup,
   .deliver 0 1, .deliver 0 2, .submit [.val (.ok 1), .ref 4] 1 1 false, .deliver 0 1, .deliver 0 1, .deliver 1 2, .deliver 2 1, .report, .get [4, 0, 5], .deliver 0 1, .deliver 0 2, .deliver 1 0, .deliver 2 0]

set_option synthInstance.maxSize 1000 in
example : ((Sys.init [1, 2]).run exSums exSumChain).map (fun s => (s.got, s.cleaned, (s.worker 1).data.map (·.1), (s.worker 2).data.map (·.1))) =
    some ([(0, .ok 0), (5, .exc 7), (4, .ok 17)], [1, 2], [5, 4, 3, 0], [4, 3, 0]) ∧
    values exSums [] exSumChain = [.ok 0, .ok 5, .ok 8, .ok 9, .ok 17, .exc 7] := by decide +kernel

end Verif.Props
