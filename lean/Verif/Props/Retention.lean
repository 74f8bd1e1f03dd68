import Verif.Lemmas.Retention

namespace Verif.Props
open Verif.Retention

/-- What still needs the data of a reference: the program, or a task that waits, as an argument or for its result. -/
def RetNeeded (s : State) (r : Nat) : Prop := r ∈ s.held ∨ ∃ t ∈ s.queue, r ∈ t.args ∨ r ∈ t.ids

/-- The number of references for which a program asks. -/
def retAsked : List Op → Nat
  | [] => 0
  | .put _ :: os => 1 + retAsked os
  | .call n _ _ :: os => n + retAsked os
  | _ :: os => retAsked os

/-- The references whose data are in the store. -/
def retKept (s : State) : List Nat := s.store.filterMap (·.1)

/-- C144: the data of a reference are released when nothing needs them any more. -/
def C144_full : Prop :=
  ∀ (b : Backend) (os : List Op) (s : State), State.init.run b os = some s → ∀ r ∈ retKept s, RetNeeded s r

/-- C144 (part): the data of every reference that is needed are there, under one key. -/
theorem C144_needed_partial (b : Backend) (os : List Op) (s : State) (h : State.init.run b os = some s) :
    (∀ r, RetNeeded s r → ∃ e, find s.store (some r) = some e) ∧ (s.store.map (·.1)).Nodup := by
  have hi := run_inv Inv.init h
  refine ⟨fun r hr => ?_, hi.none⟩
  rw [← Option.isSome_iff_exists, find_isSome, hi.mem]
  rcases hr with hr | ⟨t, ht, hr | hr⟩
  · exact hi.held r hr
  · exact hi.args t ht r hr
  · rw [← hi.mem, ← find_isSome, hi.ids t ht r hr]; rfl

/-- C144 (part): what is there once stays to the end, and does not change when it is finished, whatever else happens. -/
theorem C144_kept_partial (b : Backend) (pre post : List Op) (s s' : State) (h : State.init.run b pre = some s)
    (h' : State.init.run b (pre ++ post) = some s') (r : Nat) (e : Entry) (he : find s.store (some r) = some e) :
    (∃ e', find s'.store (some r) = some e') ∧ (e ≠ .delayed → find s'.store (some r) = some e) := by
  rw [run_append, h, Option.bind_some] at h'
  obtain ⟨e', h1, h2⟩ := run_keeps (run_inv Inv.init h) h' r e he
  exact ⟨⟨e', h1⟩, fun hne => by rw [h1, h2 hne]⟩

/-- C144 (part): an object that was put can be read to the end. -/
theorem C144_put_partial (b : Backend) (pre post : List Op) (v : List Nat) (s' : State)
    (h' : State.init.run b (pre ++ .put v :: post) = some s') :
    ∃ r u, State.init.run b (pre ++ [.put v]) = some u ∧ u.held.getLast? = some r ∧ find s'.store (some r) = some (.value v) := by
  rw [run_append, Option.bind_eq_some_iff] at h'
  obtain ⟨s, h, h'⟩ := h'
  have hi := run_inv Inv.init h
  simp only [State.run, State.step, Option.bind_some] at h'
  refine ⟨s.next, { s.puts [.value v] with held := s.held ++ [s.next] }, by rw [run_append, h]; rfl, by simp, ?_⟩
  have hf := puts_find hi [.value v] 0 (by simp)
  have hu : Inv { s.puts [.value v] with held := s.held ++ [s.next] } := step_inv (o := .put v) (b := b) hi rfl
  obtain ⟨e', h1, h2⟩ := run_keeps hu h' s.next (.value v) hf
  rw [h1, h2 (by simp)]

private theorem next_le {b : Backend} {s s' : State} {o : Op} (hs : s.step b o = some s') :
    s'.next ≤ s.next + retAsked [o] ∧ (b = .pymp → s'.next = s.next + retAsked [o]) := by
  cases o with
  | put v => simp only [State.step, Option.some.injEq] at hs; subst hs; simp [State.puts, retAsked]
  | drop q =>
    simp only [State.step] at hs
    split at hs
    · simp only [Option.some.injEq] at hs; subst hs; simp [retAsked]
    · simp at hs
  | call n args out =>
    simp only [State.step] at hs
    split at hs
    · cases b with
      | pymp => simp only [Option.some.injEq] at hs; subst hs; simp [State.puts, retAsked]
      | pyseq =>
        simp only at hs
        split at hs
        · simp only [Option.some.injEq] at hs; subst hs; simp
        · simp only [Option.some.injEq] at hs; subst hs
          have := results_le n out
          simp only [State.puts, retAsked]
          exact ⟨by omega, by simp⟩
    · simp at hs
  | exec i =>
    cases b with
    | pyseq => simp [State.step] at hs
    | pymp =>
      simp only [State.step] at hs
      split at hs
      case h_2 => simp at hs
      split at hs
      · simp at hs
      · simp only [Option.some.injEq] at hs; subst hs; simp [retAsked]

private theorem retAsked_cons (o : Op) (os : List Op) : retAsked (o :: os) = retAsked [o] + retAsked os := by
  cases o <;> simp [retAsked]

private theorem run_next {b : Backend} (os : List Op) : ∀ {s s' : State}, s.run b os = some s' →
    s'.next ≤ s.next + retAsked os ∧ (b = .pymp → s'.next = s.next + retAsked os) := by
  induction os with
  | nil => intro s s' h; simp only [State.run, Option.some.injEq] at h; subst h; simp [retAsked]
  | cons o os ih =>
    intro s s' h
    simp only [State.run, Option.bind_eq_some_iff] at h
    obtain ⟨u, hu, h⟩ := h
    have h1 := next_le hu
    have h2 := ih h
    rw [retAsked_cons]
    exact ⟨by omega, fun hb => by have := h1.2 hb; have := h2.2 hb; omega⟩

/-- C144 (part): the store contains one entry for each reference for which the program has asked, no matter what it has dropped: exactly on the
multiprocessing backend, at most on the sequential one, where a failed call may give none. -/
theorem C144_size_partial (b : Backend) (os : List Op) (s : State) (h : State.init.run b os = some s) :
    (retKept s).length ≤ retAsked os ∧ (b = .pymp → (retKept s).length = retAsked os) := by
  have hi := run_inv Inv.init h
  have hl : (retKept s).length = s.next := by
    have := hi.keys
    rw [← filterMap_fst] at this
    rw [retKept, this, List.length_range]
  rw [hl]
  have := run_next os h
  simpa [State.init] using this

/-- A program that puts an object and drops it, `n` times. -/
def exRet : Nat → List Op
  | 0 => []
  | n + 1 => exRet n ++ [.put [7], .drop n]

private theorem exRet_run (b : Backend) (n : Nat) : State.init.run b (exRet n) = some ⟨(List.range n).map fun i => (some i, .value [7]), n, [], []⟩ := by
  induction n with
  | zero => rfl
  | succ n ih =>
    rw [exRet, run_append, ih, Option.bind_some]
    simp [State.run, State.step, State.puts, List.range_succ]

/-- C144 is violated without bound on both backends: a program that holds one reference at any time fills the store. -/
theorem C144_unbounded_violated (b : Backend) (n : Nat) : ∃ os s, State.init.run b os = some s ∧ (retKept s).length = n ∧ (∀ r, ¬ RetNeeded s r) ∧
    ∀ pre post u, os = pre ++ post → State.init.run b pre = some u → u.held.length ≤ 1 := by
  refine ⟨exRet n, _, exRet_run b n, ?_, fun r hr => ?_, ?_⟩
  · simp [retKept, List.filterMap_map, Function.comp_def]
  · rcases hr with hr | ⟨t, ht, _⟩
    · simp at hr
    · simp at ht
  · induction n with
    | zero =>
      intro pre post u h hu
      simp only [exRet, List.nil_eq, List.append_eq_nil_iff] at h
      rw [h.1] at hu
      simp only [State.run, Option.some.injEq] at hu; subst hu; simp [State.init]
    | succ n ih =>
      intro pre post u h hu
      rw [exRet] at h
      rcases List.append_eq_append_iff.1 h with ⟨m, h1, h2⟩ | ⟨m, h1, _⟩
      · rw [h1, run_append, exRet_run, Option.bind_some] at hu
        rcases m with _ | ⟨a, _ | ⟨c, m⟩⟩
        · simp only [State.run, Option.some.injEq] at hu; subst hu; simp
        · simp only [List.cons_append, List.nil_append, List.cons.injEq] at h2
          rw [← h2.1] at hu
          simp only [State.run, State.step, Option.bind_some, Option.some.injEq] at hu; subst hu; simp
        · simp only [List.cons_append, List.cons.injEq] at h2
          have hm : m = [] := by have := h2.2.2; simp at this; exact this.1
          rw [← h2.1, ← h2.2.1, hm] at hu
          simp [State.run, State.step] at hu
          subst hu; simp
      · exact ih pre m u h1 hu

/-- C144 is violated. -/
theorem C144_violated : ¬ C144_full := by
  intro h
  have := h .pymp [.put [7], .drop 0] _ rfl 0 (by decide)
  rcases this with h | ⟨t, ht, _⟩
  · exact absurd h (by decide)
  · cases ht

/-- C144 is violated by results that no reference was ever given for: a call of the sequential backend whose function returns too few values raises
and leaves those it has put. -/
theorem C144_orphan_violated (v : List Nat) (n : Nat) (hv : v ≠ []) (hn : v.length < n) (hn1 : n ≠ 1) :
    ∃ s, State.init.run .pyseq [.call n [] (some v)] = some s ∧ s.held = [] ∧ (retKept s).length = v.length := by
  have hd : ¬ n ≤ v.length := by omega
  refine ⟨{ State.init.puts (v.map fun x => .value [x]) with held := [] }, ?_, rfl, ?_⟩
  · simp [State.run, State.step, fate, results, hn1, hd, List.take_of_length_le (Nat.le_of_lt hn), State.init, State.puts]
  · have hi : Inv (State.init.puts (v.map fun x => .value [x])) := Inv.init.puts _
    have := hi.keys
    rw [← filterMap_fst] at this
    have h2 : retKept { State.init.puts (v.map fun x => .value [x]) with held := [] } = List.range (State.init.puts (v.map fun x => .value [x])).next := this
    rw [h2]; simp [State.puts, State.init]

example : State.init.run .pyseq [.call 3 [] (some [5, 6])] = some ⟨[(some 0, .value [5]), (some 1, .value [6])], 2, [], []⟩ := by decide +kernel

example : (State.init.run .pymp [.put [4], .call 2 [0] (some [8, 9]), .drop 0, .exec 0, .drop 1]).map (fun s => (s.held, retKept s, find s.store (some 1))) =
    some ([2], [0, 1, 2], some (.value [8])) := by decide +kernel

example : (State.init.run .pymp [.call 0 [] none, .exec 0, .call 0 [] none, .exec 0]).map (·.store) = some [(none, .error)] := by decide +kernel

example : retAsked [.put [4], .call 2 [0] (some [8, 9]), .drop 0, .exec 0] = 3 := by decide

end Verif.Props
