import Verif.Lemmas.PympPlaces

namespace Verif.Props
open Verif.PympPlaces

/-- Process `p` is that of actor `a`, or that of an actor which was made in such a process. -/
inductive PpUnder (s : State) (a : Nat) : Nat → Prop
  | self : PpUnder s a (a + 1)
  | kid {c : Nat} {z : Place} (hc : s.actors[c]? = some z) (h : PpUnder s a z.maker) : PpUnder s a (c + 1)

/-- C146: no two live actors have the same worker, and no call of a function is placed on the worker of a live actor. -/
def C146_full : Prop :=
  ∀ (n : Nat) (os : List Op) (s : State), (State.init n).run os = some s →
    (∀ (a b : Nat) (x y : Place), s.actors[a]? = some x → s.actors[b]? = some y → x.alive = true → y.alive = true → a ≠ b → x.worker ≠ y.worker) ∧
    ∀ (p w : Nat) (s' : State), s.step (.call p) = some s' → s'.calls = s.calls ++ [(p, w)] → ∀ y ∈ s.actors, y.alive = true → y.worker ≠ w

private theorem under_of {s : State} {a p : Nat} (h : PpUnder s a p) : Under (makers s) a p := by
  induction h with
  | self => exact .self
  | kid hc _ ih => exact .kid (by simp only [makers, List.getElem?_map, hc]; rfl) ih

private theorem call_mark {s s' : State} {p w : Nat} (h : s.step (.call p) = some s') (hc : s'.calls = s.calls ++ [(p, w)]) : mark s p w = some false := by
  obtain ⟨-, -, -, h | ⟨v, h, hm⟩⟩ := step_call h
  · rw [h] at hc
    have := congrArg List.length hc
    simp at this
  · rw [h] at hc
    simp only [List.append_cancel_left_eq, List.cons.injEq, Prod.mk.injEq, true_and, and_true] at hc
    exact hc ▸ hm

/-- C146 (disagreement): whatever happened before, and whatever the number of workers: a method or constructor of an actor that makes an actor, while its
process has no other, is given the worker of its own actor. -/
theorem C146_first_violated (n : Nat) (os : List Op) (s : State) (h : (State.init n).run os = some s) (a : Nat) (x : Place) (hx : s.actors[a]? = some x)
    (hal : x.alive = true) (hk : ∀ y ∈ s.actors, y.maker = a + 1 → y.alive = false) :
    ∃ s', s.step (.create (a + 1)) = some s' ∧ s'.actors = s.actors ++ [⟨a + 1, x.worker, true⟩] :=
  create_first (inv_run os (Inv.init n) h) hx hal hk

/-- C146 (disagreement): with any number of workers there are as many live actors as one likes, all on the first worker. -/
theorem C146_all_violated (n : Nat) (k : Nat) : ∃ os s, (State.init (n + 1)).run os = some s ∧ s.actors.length = k ∧
    ∀ x ∈ s.actors, x.worker = 0 ∧ x.alive = true := by
  suffices hs : ∃ s, (State.init (n + 1)).run ((List.range k).map .create) = some s ∧ s.actors = (List.range k).map fun i => (⟨i, 0, true⟩ : Place) by
    obtain ⟨s, h, ha⟩ := hs
    refine ⟨_, s, h, by simp [ha], fun x hx => ?_⟩
    rw [ha] at hx
    simp only [List.mem_map] at hx
    obtain ⟨i, -, rfl⟩ := hx
    exact ⟨rfl, rfl⟩
  induction k with
  | zero => exact ⟨_, rfl, rfl⟩
  | succ k ih =>
    obtain ⟨s, h, ha⟩ := ih
    have hi := inv_run _ (Inv.init (n + 1)) h
    have hs : ∃ s', s.step (.create k) = some s' ∧ s'.actors = s.actors ++ [⟨k, 0, true⟩] := by
      cases k with
      | zero =>
        simp only [List.range_zero, List.map_nil, State.run, Option.some.injEq] at h
        subst h
        obtain ⟨q', hq'⟩ := grab_eq (q := ⟨List.replicate (n + 1) false, 0⟩) (w := 0) (by simp) (by omega)
        exact ⟨_, by simp only [State.step, State.runs, State.init, List.getElem?_cons_zero, hq']; rfl, rfl⟩
      | succ k =>
        refine create_first (x := ⟨k, 0, true⟩) hi (by rw [ha]; simp) rfl fun y hy hm => ?_
        rw [ha] at hy
        simp only [List.mem_map, List.mem_range] at hy
        obtain ⟨i, hik, rfl⟩ := hy
        simp only at hm; omega
    obtain ⟨s', h1, h2⟩ := hs
    refine ⟨s', by rw [List.range_succ, List.map_append, run_append _ _ h]; simp [State.run, h1], ?_⟩
    rw [h2, ha, List.range_succ, List.map_append]; rfl

/-- C146 (disagreement). -/
theorem C146_violated : ¬ C146_full := by
  intro h
  obtain ⟨os, s, hr, hl, ha⟩ := C146_all_violated 3 2
  have h0 := List.getElem?_eq_getElem (l := s.actors) (i := 0) (by omega)
  have h1 := List.getElem?_eq_getElem (l := s.actors) (i := 1) (by omega)
  have m0 := ha _ (List.mem_of_getElem? h0)
  have m1 := ha _ (List.mem_of_getElem? h1)
  exact (h 4 os s hr).1 0 1 _ _ h0 h1 m0.2 m1.2 (by decide) (m0.1.trans m1.1.symm)

/-- C146 (disagreement): the second half is wrong by itself, too. -/
theorem C146_calls_violated : ∃ os s s' w y, (State.init 2).run os = some s ∧ s.step (.call 1) = some s' ∧ s'.calls = s.calls ++ [(1, w)] ∧
    y ∈ s.actors ∧ y.alive = true ∧ y.worker = w :=
  ⟨[.create 0], _, _, 0, ⟨0, 0, true⟩, rfl, rfl, rfl, by decide, rfl, rfl⟩

/-- C146 (part): the live actors made by one process have different workers, and the calls of functions by that process avoid them. -/
theorem C146_siblings_partial (n : Nat) (os : List Op) (s : State) (h : (State.init n).run os = some s) :
    (∀ (a b : Nat) (x y : Place), s.actors[a]? = some x → s.actors[b]? = some y → x.alive = true → y.alive = true → x.maker = y.maker → a ≠ b →
      x.worker ≠ y.worker) ∧
    ∀ (p w : Nat) (s' : State), s.step (.call p) = some s' → s'.calls = s.calls ++ [(p, w)] → ∀ y ∈ s.actors, y.alive = true → y.maker = p →
      y.worker ≠ w := by
  have hi := inv_run os (Inv.init n) h
  refine ⟨hi.sib, fun p w s' hs hc y hy hal hm e => ?_⟩
  have h1 := call_mark hs hc
  obtain ⟨b, hb⟩ := List.mem_iff_getElem?.1 hy
  have h2 := hi.held b y hb hal
  rw [hm, e, h1] at h2
  cases h2

/-- C146 (part): the actors made in the process of an actor, at any depth, do not have the worker of a live actor that the same process made before that actor;
and the calls of functions there avoid it. -/
theorem C146_earlier_partial (n : Nat) (os : List Op) (s : State) (h : (State.init n).run os = some s) (a b : Nat) (x y : Place)
    (hx : s.actors[a]? = some x) (hy : s.actors[b]? = some y) (hal : y.alive = true) (hba : b < a) (hm : y.maker = x.maker) :
    (∀ z ∈ s.actors, z.alive = true → PpUnder s a z.maker → z.worker ≠ y.worker) ∧
    ∀ (p w : Nat) (s' : State), PpUnder s a p → s.step (.call p) = some s' → s'.calls = s.calls ++ [(p, w)] → w ≠ y.worker := by
  have hi := inv_run os (Inv.init n) h
  have he := early_run os (Inv.init n) (Early.init n) h
  refine ⟨fun z hz hl hu => ?_, fun p w s' hu hs hc e => ?_⟩
  · obtain ⟨c, hc⟩ := List.mem_iff_getElem?.1 hz
    exact he.cousin a b c x y z hx hy hal hba hm hc hl (under_of hu)
  · have h1 := call_mark hs hc
    have hp : p ≤ s.actors.length := by
      cases hu with
      | self => have := (List.getElem?_eq_some_iff.1 hx).1; omega
      | kid hc' _ => have := (List.getElem?_eq_some_iff.1 hc').1; omega
    have h2 := he.early a b p x y hx hy hal hba hm (under_of hu) hp
    rw [← e, h1] at h2
    cases h2

/-- C146 (part): if only the main process makes actors, no two live ones have the same worker, and its calls of functions avoid all of them. -/
theorem C146_main_partial (n : Nat) (os : List Op) (s : State) (h : (State.init n).run os = some s) (hmain : ∀ p, Op.create p ∈ os → p = 0) :
    (∀ (a b : Nat) (x y : Place), s.actors[a]? = some x → s.actors[b]? = some y → x.alive = true → y.alive = true → a ≠ b → x.worker ≠ y.worker) ∧
    ∀ (w : Nat) (s' : State), s.step (.call 0) = some s' → s'.calls = s.calls ++ [(0, w)] → ∀ y ∈ s.actors, y.alive = true → y.worker ≠ w := by
  have hz : ∀ y ∈ s.actors, y.maker = 0 := run_main os (by simp [State.init]) hmain h
  obtain ⟨h1, h2⟩ := C146_siblings_partial n os s h
  refine ⟨fun a b x y hx hy ha hb hab => h1 a b x y hx hy ha hb ?_ hab, fun w s' hs hc y hy ha => h2 0 w s' hs hc y hy ha (hz y hy)⟩
  rw [hz x (List.mem_of_getElem? hx), hz y (List.mem_of_getElem? hy)]

/-- C146 (part), exactly: an actor made in the process of actor `a` gets the worker of `a` if and only if no live actor of that process has it; else a later one. -/
theorem C146_own_exactly_partial (n : Nat) (os : List Op) (s s' : State) (h : (State.init n).run os = some s) (a : Nat) (x y : Place)
    (hx : s.actors[a]? = some x) (hal : x.alive = true) (hs : s.step (.create (a + 1)) = some s') (hy : s'.actors = s.actors ++ [y]) :
    (y.worker = x.worker ↔ ∀ z ∈ s.actors, z.alive = true → z.maker = a + 1 → z.worker ≠ x.worker) ∧ x.worker ≤ y.worker := by
  have hi := inv_run os (Inv.init n) h
  obtain ⟨-, rfl | ⟨w, hf, hb, ha, -⟩⟩ := step_create hi.len hs
  · have := congrArg List.length hy
    simp at this
  · rw [ha] at hy
    simp only [List.append_cancel_left_eq, List.cons.injEq, and_true] at hy
    subst hy
    have hle : x.worker ≤ w := by
      rcases Nat.lt_or_ge w x.worker with hlt | hge
      · have := hi.below a x w hx hal hlt
        rw [hf] at this; cases this
      · exact hge
    refine ⟨⟨fun e z hz hl hm hw => ?_, fun hz => ?_⟩, hle⟩
    · simp only at e
      obtain ⟨c, hc⟩ := List.mem_iff_getElem?.1 hz
      have := hi.held c z hc hl
      rw [hm, hw, ← e, hf] at this
      cases this
    · rcases hi.own a x hx hal with ho | ⟨b, z, hb', h1, h2, h3⟩
      · rcases Nat.lt_or_ge x.worker w with hlt | hge
        · have := hb _ hlt
          rw [ho] at this; cases this
        · exact Nat.le_antisymm hge hle
      · exact absurd h3 (hz z (List.mem_of_getElem? hb') h1 h2)

/-- A history with four workers: two actors of the main process, one made in a method of the second, one made in a method of that one, a further one of the
second, and one of the main process after the first was dropped. -/
def exPpOps : List Op := [.create 0, .create 0, .create 2, .create 3, .create 2, .call 3, .drop 0, .create 0, .call 0, .call 2]

/-- The history can be executed; the actors of the second actor have worker 1, its own, and 2. -/
example : ((State.init 4).run exPpOps).map (fun s => (s.actors, s.calls)) =
    some ([⟨0, 0, false⟩, ⟨0, 1, true⟩, ⟨2, 1, true⟩, ⟨3, 1, true⟩, ⟨2, 2, true⟩, ⟨0, 0, true⟩], [(3, 2), (0, 2), (2, 3)]) := by
  decide +kernel

/-- `C146_first_violated` for the second actor of the main process. -/
example : ∃ s', ((State.init 4).run [.create 0, .create 0]).bind (·.step (.create 2)) = some s' ∧ s'.actors[2]? = some ⟨2, 1, true⟩ :=
  ⟨_, rfl, by decide +kernel⟩

/-- `C146_all_violated`: with one worker. -/
example : ((State.init 1).run [.create 0, .create 1, .create 2]).map (·.actors) = some [⟨0, 0, true⟩, ⟨1, 0, true⟩, ⟨2, 0, true⟩] := by
  decide +kernel

/-- `C146_siblings_partial`: three actors of the main process with four workers; the call goes to the last. -/
example : ((State.init 4).run [.create 0, .create 0, .create 0, .call 0]).map (fun s => (s.actors.map (·.worker), s.calls)) = some ([0, 1, 2], [(0, 3)]) := by
  decide +kernel

/-- `C146_earlier_partial`: actors 2, 3 and 4 of `exPpOps` are below actor 1 and do not have the worker of actor 0. -/
example : ((State.init 4).run (exPpOps.take 6)).map (fun s => (s.actors[0]?, (s.actors.drop 2).map (·.worker))) = some (some ⟨0, 0, true⟩, [1, 1, 2]) := by
  decide +kernel

/-- `C146_main_partial`: the worker of a dropped actor is given to the next one. -/
example : ((State.init 2).run [.create 0, .create 0, .create 0, .call 0, .drop 0, .call 0, .create 0]).map (fun s => (s.actors, s.calls)) =
    some ([⟨0, 0, false⟩, ⟨0, 1, true⟩, ⟨0, 0, true⟩], [(0, 0)]) := by
  decide +kernel

/-- `C146_own_exactly_partial`: the second actor of process 1 has a later worker; after the first was dropped the next one has the worker again. -/
example : ((State.init 3).run [.create 0, .create 1, .create 1, .drop 1, .create 1]).map (·.actors) =
    some [⟨0, 0, true⟩, ⟨1, 0, false⟩, ⟨1, 1, true⟩, ⟨1, 0, true⟩] := by
  decide +kernel

end Verif.Props
