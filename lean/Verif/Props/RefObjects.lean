import Verif.Lemmas.RefObjects

/-!
# C149: the references that `wait` returns are those that were given

A program that keeps, for each reference, what it belongs to, looks this up for the references that `wait` returns.
-/
namespace Verif.Props
open Verif.RefObj

/-- C149, table form: after every history, a dictionary with an entry for each reference given to `wait` has an entry for each
reference that `wait` returns. -/
def C149_full : Prop :=
  ∀ (history : List Act) (s s' : State) (a : Arg) (ready rest done left : List Nat) (table : List (Nat × Nat)),
    State.init.run history = some s → s.step (.wait a ready rest) = some (s', done, left) →
    (∀ o ∈ a.objs, (lookupRef table o).isSome) → ∀ o ∈ done ++ left, (lookupRef table o).isSome

/-- Two calls; their references are 0 and 1. -/
def exRefTwo : State := ⟨[0, 1], [5, 6]⟩

/-- **C149 is violated.** Two calls, a dictionary with an entry for each of their references, and `wait` of both: nothing is found. -/
theorem C149_violated : ¬ C149_full := by
  intro h
  have := h [.call [5], .call [6]] exRefTwo ⟨[0, 1, 1, 0], [5, 6]⟩ (.many [0, 1]) [1] [0] [2] [3] [(0, 50), (1, 60)] (by decide) (by decide)
    (by decide) 2 (by decide)
  revert this
  decide

example : State.init.run [.call [5], .call [6]] = some exRefTwo := by decide
example : lookupRef [(0, 50), (1, 60)] 2 = none ∧ lookupRef [(0, 50), (1, 60)] 1 = some 60 := by decide

/-- **Never found.** Whatever the state, no reference returned by `wait` is found in a dictionary whose keys are references made before, and
none can be removed from a list of such references (`refs.remove(ref)` raises `ValueError`), for every `wait` that returns. -/
theorem C149_never_violated (s s' : State) (a : Arg) (ready rest done left : List Nat) (h : s.step (.wait a ready rest) = some (s', done, left))
    (o : Nat) (ho : o ∈ done ++ left) :
    (∀ table : List (Nat × Nat), (∀ p ∈ table, (s.inside[p.1]?).isSome) → lookupRef table o = none) ∧
    (∀ l : List Nat, (∀ x ∈ l, (s.inside[x]?).isSome) → removeRef o l = none) := by
  obtain ⟨_, _, _, _, _, _, _, hn⟩ := wait_step h
  have hn := hn o ho
  constructor
  · intro table ht
    apply lookup_absent
    intro p hp e
    have := ht p hp
    simp only [isSome_getElem?, decide_eq_true_eq] at this
    omega
  · intro l hl
    apply remove_absent
    intro hm
    have := hl o hm
    simp only [isSome_getElem?, decide_eq_true_eq] at this
    omega

example : exRefTwo.step (.wait (.many [0, 1]) [1] [0]) = some (⟨[0, 1, 1, 0], [5, 6]⟩, [2], [3]) := by decide
example : removeRef 2 [0, 1] = none ∧ removeRef 1 [0, 1] = some [0] := by decide

/-- **The same for references that come back with data.** A reference taken out of data that were stored or passed has the data of the
original, but is not found in a dictionary of references made before. -/
theorem C149_copy_violated (s s' : State) (o : Nat) (back none' : List Nat) (h : s.step (.copy o) = some (s', back, none')) :
    ∃ c, back = [c] ∧ s'.inside[c]? = s.inside[o]? ∧ (s.inside[o]?).isSome ∧
      ∀ table : List (Nat × Nat), (∀ p ∈ table, (s.inside[p.1]?).isSome) → lookupRef table c = none := by
  simp only [State.step] at h
  split at h
  · simp at h
  · rename_i r hr
    simp only [State.wrap, Option.some.injEq, Prod.mk.injEq] at h
    obtain ⟨rfl, rfl, -⟩ := h
    refine ⟨s.inside.length, by simp, by simp [hr], by simp [hr], ?_⟩
    intro table ht
    apply lookup_absent
    intro p hp e
    have := ht p hp
    simp only [isSome_getElem?, decide_eq_true_eq] at this
    omega

example : exRefTwo.step (.copy 1) = some (⟨[0, 1, 1], [5, 6]⟩, [2], []) := by decide

/-- **The same data.** After every history, the references inside the objects that `wait` returns are, in some order, those inside the given
objects, and `get` of all returned objects gives, in some order, what `get` of the given ones gave before. -/
theorem C149_data_partial (history : List Act) (s s' : State) (a : Arg) (ready rest done left : List Nat)
    (hr : State.init.run history = some s) (h : s.step (.wait a ready rest) = some (s', done, left)) :
    (∃ given got, s.unwrap a.objs = some given ∧ s'.unwrap (done ++ left) = some got ∧ got.Perm given) ∧
    ∃ before after, s.get a.objs = some before ∧ s'.get (done ++ left) = some after ∧ after.Perm before := by
  have hs : Sound s := run_sound history (by intro r hr; simp [State.init] at hr) hr
  obtain ⟨given, hg, hp, hgr, hv, h1, h2, -⟩ := wait_step h
  have hu := unwrap_append h1 h2
  refine ⟨⟨given, ready ++ rest, hg, hu, hp⟩, _, _, get_unwrap hs hg, get_unwrap (step_sound hs h) hu, ?_⟩
  rw [hv]
  exact hp.map _

example : exRefTwo.get [0, 1] = some [5, 6] ∧ (⟨[0, 1, 1, 0], [5, 6]⟩ : State).get ([2] ++ [3]) = some [6, 5] := by decide

/-- **One reference.** `wait` of a reference that is not in a list, or in a list of its own, returns one reference, in one of the two lists,
with the data of the given one. -/
theorem C149_one_partial (history : List Act) (s s' : State) (o : Nat) (a : Arg) (ha : a = .one o ∨ a = .many [o]) (ready rest done left : List Nat)
    (hr : State.init.run history = some s) (h : s.step (.wait a ready rest) = some (s', done, left)) :
    ∃ c r, (done = [c] ∧ left = [] ∨ done = [] ∧ left = [c]) ∧ s.inside[o]? = some r ∧ s'.inside[c]? = some r ∧
      (s.get [o]).isSome ∧ s'.get [c] = s.get [o] := by
  have hs : Sound s := run_sound history (by intro r hr; simp [State.init] at hr) hr
  obtain ⟨given, hg, hp, hgr, hv, h1, h2, -⟩ := wait_step h
  have ho : a.objs = [o] := by rcases ha with rfl | rfl <;> rfl
  rw [ho, unwrap_iff] at hg
  have hlen : given.length = 1 := by simpa using (congrArg List.length hg).symm
  obtain ⟨r, rfl⟩ := List.length_eq_one_iff.1 hlen
  simp only [List.map_cons, List.map_nil, List.cons.injEq, and_true] at hg
  have hu := unwrap_append h1 h2
  rw [List.perm_singleton.1 hp, unwrap_iff] at hu
  have hlen2 : (done ++ left).length = 1 := by simpa using congrArg List.length hu
  obtain ⟨c, hd⟩ := List.length_eq_one_iff.1 hlen2
  rw [hd] at hu
  simp only [List.map_cons, List.map_nil, List.cons.injEq, and_true] at hu
  have hl := hs r (List.mem_of_getElem? hg)
  have hc : done = [c] ∧ left = [] ∨ done = [] ∧ left = [c] := by
    rcases List.append_eq_singleton_iff.1 hd with ⟨h3, h4⟩ | ⟨h3, h4⟩
    · exact .inr ⟨h3, h4⟩
    · exact .inl ⟨h3, h4⟩
  refine ⟨c, r, hc, hg, hu, ?_, ?_⟩ <;> simp [State.get, hg, hu, hv, hl]

example : exRefTwo.step (.wait (.one 1) [1] []) = some (⟨[0, 1, 1], [5, 6]⟩, [2], []) := by decide

/-- **A table by the reference inside.** Whatever the state, a dictionary with an entry for `ref._ref` of each given reference has one for
`ref._ref` of each returned reference. -/
theorem C149_inner_partial (s s' : State) (a : Arg) (ready rest done left : List Nat) (h : s.step (.wait a ready rest) = some (s', done, left))
    (table : List (Nat × Nat)) (ht : ∀ o ∈ a.objs, ∀ r, s.inside[o]? = some r → ∃ v, (r, v) ∈ table) (o : Nat) (ho : o ∈ done ++ left) :
    ∃ r g v, s'.inside[o]? = some r ∧ g ∈ a.objs ∧ s.inside[g]? = some r ∧ (r, v) ∈ table := by
  obtain ⟨given, hg, hp, hgr, hv, h1, h2, -⟩ := wait_step h
  have hu := unwrap_append h1 h2
  rw [unwrap_iff] at hu hg
  have hm : s'.inside[o]? ∈ (ready ++ rest).map some := by rw [← hu]; exact List.mem_map.2 ⟨o, ho, rfl⟩
  obtain ⟨r, hr, hro⟩ := List.mem_map.1 hm
  have hm2 : some r ∈ a.objs.map (s.inside[·]?) := by rw [hg]; exact List.mem_map.2 ⟨r, hp.mem_iff.1 hr, rfl⟩
  obtain ⟨g, hga, hgr⟩ := List.mem_map.1 hm2
  obtain ⟨v, hv⟩ := ht g hga r hgr
  exact ⟨r, g, v, hro.symm, hga, hgr, hv⟩

example : (⟨[0, 1, 1, 0], [5, 6]⟩ : State).inside[2]? = exRefTwo.inside[1]? := by decide

/-- **Earlier references keep working.** Whatever a program does afterwards, a reference made earlier has the same data. -/
theorem C149_kept_partial (before after : List Act) (s s' : State) (hb : State.init.run before = some s) (ha : s.run after = some s')
    (o r : Nat) (ho : s.inside[o]? = some r) :
    s'.inside[o]? = some r ∧ (s.get [o]).isSome ∧ s'.get [o] = s.get [o] := by
  have hs : Sound s := run_sound before (by intro r hr; simp [State.init] at hr) hb
  have hg := run_grows after ha
  have h1 := hg.inside ho
  have hl := hs r (List.mem_of_getElem? ho)
  obtain ⟨-, y, hy⟩ := hg
  have h2 : (s.vals ++ y)[r]? = s.vals[r]? := List.getElem?_append_left hl
  refine ⟨h1, ?_, ?_⟩ <;> simp [State.get, ho, h1, hy, hl, h2]

example : (exRefTwo.run [.wait (.many [0, 1]) [1] [0], .put 9, .copy 2]).bind (·.get [0, 1, 2, 3, 4, 5]) = some [5, 6, 6, 5, 9, 6] := by
  decide

/-- **The usual loop.** `while refs: done, refs = unidist.wait(refs)` hands out, whatever the backend answers, the data of
every given reference exactly as often as it was given: no reference is lost, none is handed out twice. -/
theorem C149_loop_partial (history : List Act) (s s' : State) (l done : List Nat) (answers : List (List Nat × List Nat))
    (hr : State.init.run history = some s) (hl : ∀ o ∈ l, (s.inside[o]?).isSome) (h : s.drain l answers = some (s', done)) :
    (∃ given got, s.unwrap l = some given ∧ s'.unwrap done = some got ∧ got.Perm given) ∧
    ∃ before after, s.get l = some before ∧ s'.get done = some after ∧ after.Perm before := by
  have hs : Sound s := run_sound history (by intro r hr; simp [State.init] at hr) hr
  have hu : ∃ given, s.unwrap l = some given := by
    refine ⟨l.map (fun o => s.inside.getD o 0), (unwrap_iff _ _ _).2 ?_⟩
    rw [List.map_map]
    apply List.map_congr_left
    intro o ho
    have := hl o ho
    simp only [isSome_getElem?, decide_eq_true_eq] at this
    simp [List.getD, this]
  obtain ⟨given, hg⟩ := hu
  obtain ⟨-, hv, hd⟩ := drain_spec answers h
  obtain ⟨got, h1, h2⟩ := hd given hg
  have hs' : Sound s' := drain_sound answers hs h
  refine ⟨⟨given, got, hg, h1, h2⟩, _, _, get_unwrap hs hg, get_unwrap hs' h1, ?_⟩
  rw [hv]
  exact h2.map _

example : (exRefTwo.drain [0, 1] [([1], [0]), ([0], [])]).bind (fun r => r.1.get r.2) = some [6, 5] := by decide

/-- **Every order is possible.** For every order `p` of the references inside the given ones there are answers of the backend, with one
reference ready each time, for which the loop ends and hands out the references in the order `p`. -/
theorem C149_orders_partial (s : State) (l given p : List Nat) (hg : s.unwrap l = some given) (hp : p.Perm given) :
    ∃ answers s' done, s.drain l answers = some (s', done) ∧ (∀ q ∈ answers, q.1.length = 1) ∧ s'.unwrap done = some p :=
  drain_possible p hg hp

example : exRefTwo.unwrap [0, 1] = some [0, 1] ∧ [1, 0].Perm [0, 1] := by decide

end Verif.Props
