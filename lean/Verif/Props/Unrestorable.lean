import Verif.Lemmas.UnrestorableTasks

/-! C142: results that can be serialized but not restored. -/
namespace Verif.Props

open Verif.Unrestorable

/-- C142: whatever results cannot be restored, no worker ends, no `get` is disturbed by an earlier one, and a `get` of executed tasks of running workers can
always end. -/
def C142_full : Prop :=
  ∀ (p : Prog) (acts : List Act) (s : State), State.init.run p acts = some s → s.dead = [] ∧ Out.stray ∉ s.log ∧
    ∀ r c, s.getting = some (r, c) → (∀ j ∈ r, j ∈ s.done ∧ p.place j ∉ s.dead) → ∃ more t, s.run p more = some t ∧ t.getting = none

/-- Task 0 on worker 0 has a result that cannot be restored, task 1 on worker 1 depends on it; tasks 2 and 3 on worker 1 do not. -/
def exBad : Prog := ⟨fun i => if i = 1 then [0] else [], fun i => if i = 0 then 0 else 1, fun i => decide (i = 0)⟩

/-- C142 (part): as long as only results are asked for that can be restored, every `get` that ends has got the values, and a `get` of executed tasks of
running workers can always end. Missing: programs that also ask for other results. -/
theorem C142_good_partial (p : Prog) (acts : List Act) (s : State) (h : State.init.run p acts = some s)
    (ha : ∀ ids, Act.get ids ∈ acts → ∀ j ∈ ids, p.bad j = false) :
    (∀ o ∈ s.log, o = .values) ∧ ∀ r c, s.getting = some (r, c) → (∀ j ∈ r, j ∈ s.done ∧ p.place j ∉ s.dead) →
      ∃ more t, s.run p more = some t ∧ t.getting = none ∧ t.log = s.log ++ [.values] ∧ ∀ ids, Act.get ids ∉ more :=
  ⟨(inv_run acts ha h).log, fun _ c hg hd => ends _ s c (inv_run acts ha h) hg hd rfl⟩

example : (State.init.run exBad [.exec 2, .exec 3, .get [3, 2], .reply 2, .reply 3, .take, .take, .get [2]]).map (fun s => (s.log, s.root, s.sent)) =
    some ([.values, .values], [2, 3], [2, 3]) := by decide

/-- C142 (part): what the main process has can be restored and was computed. -/
theorem C142_root_partial (p : Prog) (acts : List Act) (s : State) (h : State.init.run p acts = some s) :
    (∀ j ∈ s.root, p.bad j = false ∧ j ∈ s.done) ∧ ∀ j ∈ s.mail, j ∈ s.done := by
  induction acts using List.reverseRecOn generalizing s with
  | nil => cases h; simp [State.init]
  | append_singleton as a ih =>
    obtain ⟨t, ht, hs⟩ := run_concat h
    obtain ⟨h1, h2⟩ := ih t ht
    cases a with
    | exec i =>
      simp only [State.step] at hs
      split at hs
      · cases hs; exact ⟨fun j hj => ⟨(h1 j hj).1, by simp [(h1 j hj).2]⟩, fun j hj => by simp [h2 j hj]⟩
      · cases hs
    | ship j i =>
      simp only [State.step] at hs
      split at hs
      · split at hs <;> cases hs <;> exact ⟨h1, h2⟩
      · cases hs
    | get ids =>
      simp only [State.step] at hs
      split at hs
      · split at hs <;> cases hs <;> exact ⟨h1, h2⟩
      · cases hs
    | reply j =>
      simp only [State.step] at hs
      split at hs
      · rename_i hc
        split at hs <;> cases hs
        · exact ⟨h1, h2⟩
        · refine ⟨h1, fun k hk => ?_⟩
          rcases List.mem_append.1 hk with hk | hk
          · exact h2 k hk
          · rw [List.mem_singleton.1 hk]; exact hc.2.1
      · cases hs
    | take =>
      simp only [State.step] at hs
      split at hs
      · rename_i r c j rest hg hm
        have hj : j ∈ t.done := h2 j (by simp [hm])
        have hrest : ∀ k ∈ rest, k ∈ t.done := fun k hk => h2 k (by simp [hm, hk])
        split at hs
        · cases hs; exact ⟨h1, hrest⟩
        · rename_i hb
          have hroot : ∀ k ∈ t.root ++ [j], p.bad k = false ∧ k ∈ t.done := by
            intro k hk
            rcases List.mem_append.1 hk with hk | hk
            · exact h1 k hk
            · rw [List.mem_singleton.1 hk]; exact ⟨by simpa using hb, hj⟩
          split at hs
          · split at hs <;> cases hs <;> exact ⟨hroot, hrest⟩
          · cases hs; exact ⟨hroot, hrest⟩
      · cases hs

example : (State.init.run exBad [.exec 0, .get [0], .reply 0, .take]).map (fun s => (s.log, s.root, s.getting)) = some ([.restore], [], none) := by decide

/-- C142 (part), exactly: a worker ends if and only if a result that cannot be restored was sent to it for a task. -/
theorem C142_dead_exactly_partial (p : Prog) (acts : List Act) (s : State) (h : State.init.run p acts = some s) (w : Nat) :
    w ∈ s.dead ↔ ∃ j i, Act.ship j i ∈ acts ∧ p.place i = w ∧ p.bad j = true := by
  induction acts using List.reverseRecOn generalizing s with
  | nil => cases h; simp [State.init]
  | append_singleton as a ih =>
    obtain ⟨t, ht, hs⟩ := run_concat h
    have hi := ih t ht
    have hother : (∀ j i, a ≠ .ship j i) → s.dead = t.dead → (w ∈ s.dead ↔ ∃ j i, Act.ship j i ∈ as ++ [a] ∧ p.place i = w ∧ p.bad j = true) := by
      intro ha hd
      rw [hd, hi]
      constructor
      · rintro ⟨j, i, h1, h2⟩; exact ⟨j, i, by simp [h1], h2⟩
      · rintro ⟨j, i, h1, h2⟩
        rcases List.mem_append.1 h1 with h1 | h1
        · exact ⟨j, i, h1, h2⟩
        · exact absurd (List.mem_singleton.1 h1).symm (ha j i)
    cases a with
    | exec i =>
      simp only [State.step] at hs
      split at hs <;> cases hs
      exact hother (by simp) rfl
    | get ids =>
      simp only [State.step] at hs
      split at hs
      · split at hs <;> cases hs <;> exact hother (by simp) rfl
      · cases hs
    | reply j =>
      simp only [State.step] at hs
      split at hs
      · split at hs <;> cases hs <;> exact hother (by simp) rfl
      · cases hs
    | take =>
      simp only [State.step] at hs
      split at hs
      · split at hs
        · cases hs; exact hother (by simp) rfl
        · split at hs
          · split at hs <;> cases hs <;> exact hother (by simp) rfl
          · cases hs; exact hother (by simp) rfl
      · cases hs
    | ship j i =>
      simp only [State.step] at hs
      split at hs
      · split at hs
        · rename_i hb
          cases hs
          simp only [List.mem_append, List.mem_singleton, hi]
          constructor
          · rintro (⟨k, l, h1, h2⟩ | rfl)
            · exact ⟨k, l, .inl h1, h2⟩
            · exact ⟨j, i, .inr rfl, rfl, hb⟩
          · rintro ⟨k, l, h1 | h1, h2, h3⟩
            · exact .inl ⟨k, l, h1, h2, h3⟩
            · cases h1; exact .inr h2.symm
        · rename_i hb
          cases hs
          simp only [List.mem_append, List.mem_singleton, hi]
          constructor
          · rintro ⟨k, l, h1, h2⟩; exact ⟨k, l, .inl h1, h2⟩
          · rintro ⟨k, l, h1 | h1, h2, h3⟩
            · exact ⟨k, l, h1, h2, h3⟩
            · cases h1; exact absurd h3 hb
      · cases hs

example : (State.init.run exBad [.exec 2, .exec 0, .ship 0 1]).map (fun s => (s.dead, s.done)) = some ([1], [2, 0]) := by decide

/-- C142 (part): no worker ends in a program in which a result that cannot be restored is an argument of tasks of its own worker only. -/
theorem C142_own_partial (p : Prog) (hp : ∀ i, ∀ j ∈ p.deps i, p.bad j = true → p.place j = p.place i) (acts : List Act) (s : State)
    (h : State.init.run p acts = some s) : s.dead = [] := by
  refine List.eq_nil_iff_forall_not_mem.2 fun w hw => ?_
  obtain ⟨j, i, hm, _, hb⟩ := (C142_dead_exactly_partial p acts s h w).1 hw
  obtain ⟨pre, post, rfl⟩ := List.append_of_mem hm
  rw [run_append, Option.bind_eq_some_iff] at h
  obtain ⟨t, _, h⟩ := h
  simp only [State.run, Option.bind_eq_some_iff] at h
  obtain ⟨u, hu, _⟩ := h
  simp only [State.step] at hu
  split at hu
  · rename_i hc
    exact hc.2.2.1 (hp i j hc.2.1 hb)
  · cases hu

example : (State.init.run ⟨fun i => if i = 1 then [0] else [], fun _ => 0, fun i => decide (i = 0)⟩ [.exec 0, .exec 1, .get [1], .reply 1, .take]).map
    (fun s => (s.dead, s.done, s.log)) = some ([], [0, 1], [.values]) := by decide

/-- A result that cannot be restored and was received is never received again. -/
theorem C142_again_violated (p : Prog) (s : State) (j : Nat) (hb : p.bad j = true) (hs : j ∈ s.sent) (hm : s.mail = []) (ha : s.asked = [j])
    (hg : s.getting = some ([j], 0)) (more : List Act) (t : State) (h : s.run p more = some t) : t.getting = some ([j], 0) ∧ t.log = s.log := by
  have key : ∀ (more : List Act) (s t : State), j ∈ s.sent → s.mail = [] → (∀ k ∈ s.asked, k = j) → s.getting = some ([j], 0) → s.run p more = some t →
      t.getting = some ([j], 0) ∧ t.log = s.log := by
    intro more
    induction more with
    | nil => intro s t _ _ _ hg h; cases h; exact ⟨hg, rfl⟩
    | cons a more ih =>
      intro s t hs hm ha hg h
      simp only [State.run, Option.bind_eq_some_iff] at h
      obtain ⟨u, hu, h⟩ := h
      cases a with
      | exec i =>
        simp only [State.step] at hu
        split at hu <;> cases hu
        exact ih { s with done := s.done ++ [i] } t hs hm ha hg h
      | ship k i =>
        simp only [State.step] at hu
        split at hu
        · split at hu <;> cases hu <;>
            (have hh := ih _ t (by exact hs) (by exact hm) (by exact ha) (by exact hg) h; exact hh)
        · cases hu
      | get ids =>
        simp only [State.step, hg] at hu
        rw [if_neg (by simp)] at hu
        cases hu
      | take =>
        simp only [State.step, hg, hm] at hu
        cases hu
      | reply k =>
        simp only [State.step] at hu
        split at hu
        · rename_i hc
          rw [if_pos (by rw [ha k hc.1]; exact hs)] at hu
          cases hu
          exact ih { s with asked := s.asked.erase k } t hs hm (fun l hl => ha l (List.mem_of_mem_erase hl)) hg h
        · cases hu
  exact key more s t hs hm (fun k hk => by rw [ha] at hk; exact List.mem_singleton.1 hk) hg h

set_option synthInstance.maxSize 1000 in
example : (State.init.run exBad [.exec 0, .get [0], .reply 0, .take, .get [0]]).map (fun s => (s.sent, s.mail, s.asked, s.getting, s.log)) =
    some ([0], [], [0], some ([0], 0), [.restore]) ∧
    (State.init.run exBad [.exec 0, .get [0], .reply 0, .take, .get [0], .reply 0]).map (fun s => (s.mail, s.asked, s.getting)) =
      some ([], [], some ([0], 0)) := by decide

/-- In every program, the second `get` of a task without arguments whose result cannot be restored waits for ever. -/
theorem C142_second_violated (p : Prog) (j : Nat) (hd : p.deps j = []) (hb : p.bad j = true) :
    ∃ s, State.init.run p [.exec j, .get [j], .reply j, .take, .get [j]] = some s ∧ s.log = [.restore] ∧
      ∀ more t, s.run p more = some t → t.getting = some ([j], 0) ∧ t.log = [.restore] := by
  refine ⟨⟨[j], [], [], [], [j], [], [], [j], some ([j], 0), [.restore]⟩, ?_, rfl, fun more t h => ?_⟩
  · simp [State.run, State.step, State.init, hd, hb]
  · exact C142_again_violated p _ j hb (by simp) rfl rfl rfl more t h

example : exBad.deps 0 = [] ∧ exBad.bad 0 = true := by decide

/-- The rest of a list with a result that cannot be restored reaches the next `get`, which fails although its own reference is fine. -/
theorem C142_stray_violated (p : Prog) (i j k : Nat) (hi : p.deps i = []) (hj : p.deps j = []) (hk : p.deps k = []) (bi : p.bad i = true)
    (bj : p.bad j = false) (bk : p.bad k = false) (hjk : j ≠ k) :
    ∃ s, State.init.run p [.exec i, .exec j, .exec k, .get [i, j], .reply i, .reply j, .take, .get [k], .reply k, .take] = some s ∧
      s.log = [.restore, .stray] ∧ s.getting = none := by
  have hij : i ≠ j := fun e => by rw [e, bj] at bi; cases bi
  have hik : i ≠ k := fun e => by rw [e, bk] at bi; cases bi
  have hji := hij.symm
  have hki := hik.symm
  have hkj := hjk.symm
  refine ⟨⟨[i, j, k], [], [], [], [i, j, k], [j], [k], [], none, [.restore, .stray]⟩, ?_, rfl, rfl⟩
  simp [State.run, State.step, State.init, hi, hj, hk, bi, bj, hij, hik, hji, hki, hjk, hkj]

example : (State.init.run exBad [.exec 0, .exec 2, .exec 3, .get [0, 2], .reply 0, .reply 2, .take, .get [3], .reply 3, .take]).map (·.log) =
    some [.restore, .stray] := by decide

/-- A result that cannot be restored, given to a task of another worker, ends that worker; the results that it has computed before are lost. -/
theorem C142_lost_violated (p : Prog) (i j k : Nat) (hi : j ∈ p.deps i) (hj : p.deps j = []) (hk : p.deps k = []) (bj : p.bad j = true)
    (bk : p.bad k = false) (hp : p.place j ≠ p.place i) (hpk : p.place k = p.place i) (hik : i ≠ k) :
    ∃ s, State.init.run p [.exec k, .exec j, .ship j i, .get [k]] = some s ∧ s.dead = [p.place i] ∧
      ∀ more t, s.run p more = some t → t.getting = some ([k], 0) := by
  have hjk : j ≠ k := fun e => by rw [e, bk] at bj; cases bj
  have hij : i ≠ j := fun e => hp (by rw [e])
  refine ⟨⟨[k, j], [], [(j, p.place i)], [p.place i], [], [], [], [k], some ([k], 0), []⟩, ?_, rfl, ?_⟩
  · simp [State.run, State.step, State.init, hi, hj, hk, bj, hp, hik, hij, hjk]
  · have key : ∀ (more : List Act) (s t : State), p.place k ∈ s.dead → s.mail = [] → (∀ l ∈ s.asked, l = k) → s.getting = some ([k], 0) →
        s.run p more = some t → t.getting = some ([k], 0) := by
      intro more
      induction more with
      | nil => intro s t _ _ _ hg h; cases h; exact hg
      | cons a more ih =>
        intro s t hs hm ha hg h
        simp only [State.run, Option.bind_eq_some_iff] at h
        obtain ⟨u, hu, h⟩ := h
        cases a with
        | exec i =>
          simp only [State.step] at hu
          split at hu <;> cases hu
          exact ih { s with done := s.done ++ [i] } t hs hm ha hg h
        | ship l i =>
          simp only [State.step] at hu
          split at hu
          · split at hu
            · cases hu; exact ih _ t (by exact List.mem_append_left _ hs) (by exact hm) (by exact ha) (by exact hg) h
            · cases hu; exact ih _ t (by exact hs) (by exact hm) (by exact ha) (by exact hg) h
          · cases hu
        | get ids =>
          simp only [State.step, hg] at hu
          rw [if_neg (by simp)] at hu
          cases hu
        | take =>
          simp only [State.step, hg, hm] at hu
          cases hu
        | reply l =>
          simp only [State.step] at hu
          split at hu
          · rename_i hc
            exact absurd (by rw [ha l hc.1]; exact hs) hc.2.2
          · cases hu
    exact fun more t h => key more _ t (by simp [hpk]) rfl (by simp) rfl h

example : (State.init.run exBad [.exec 2, .exec 0, .ship 0 1, .get [2]]).map (fun s => (s.dead, s.getting)) = some ([1], some ([2], 0)) := by decide

/-- C142 is violated. -/
theorem C142_violated : ¬ C142_full := by
  intro h
  obtain ⟨s, hr, hl, hs⟩ := C142_second_violated exBad 0 rfl rfl
  have hdone : s.done = [0] ∧ s.dead = [] ∧ s.getting = some ([0], 0) := by
    have : (State.init.run exBad [.exec 0, .get [0], .reply 0, .take, .get [0]]).map (fun s => (s.done, s.dead, s.getting)) =
        some ([0], [], some ([0], 0)) := by decide
    rw [hr] at this
    simpa using this
  obtain ⟨more, t, ht, hg⟩ := (h exBad _ s hr).2.2 [0] 0 hdone.2.2 (by simp [hdone.1, hdone.2.1])
  rw [(hs more t ht).1] at hg
  cases hg

example : (State.init.run exBad [.exec 0, .get [0], .reply 0, .take, .get [0], .reply 0]).map (fun s => (s.getting, s.mail)) = some (some ([0], 0), []) := by
  decide

/-- C142 (part): whatever cannot be restored, tasks are executed once, and after those whose results they need. -/
theorem C142_order_partial (p : Prog) (acts : List Act) (s : State) (h : State.init.run p acts = some s) :
    s.done.Nodup ∧ ∀ pre i post, s.done = pre ++ i :: post → ∀ j ∈ p.deps i, j ∈ pre :=
  ⟨(tasks_run acts tasks_init h).nodup, (tasks_run acts tasks_init h).order⟩

example : (State.init.run exBad [.exec 0, .exec 1]).isSome = false ∧ (State.init.run exBad [.exec 2, .exec 2]).isSome = false ∧
    (State.init.run ⟨exBad.deps, exBad.place, fun _ => false⟩ [.exec 0, .ship 0 1, .exec 1]).map (·.done) = some [0, 1] := by decide

/-- C142 (part): a task of a running worker whose arguments were computed is executed, if those of other workers can be restored and their workers run. What
else cannot be restored does not matter. -/
theorem C142_executed_partial (p : Prog) (acts : List Act) (s : State) (h : State.init.run p acts = some s) (i : Nat) (hi : i ∉ s.done) (hw : p.place i ∉ s.dead)
    (hd : ∀ j ∈ p.deps i, j ∈ s.done ∧ (p.place j ≠ p.place i → p.place j ∉ s.dead ∧ p.bad j = false)) :
    ∃ more t, s.run p more = some t ∧ t.done = s.done ++ [i] ∧ t.dead = s.dead ∧ ∀ a ∈ more, a = .exec i ∨ ∃ j, a = .ship j i := by
  obtain ⟨more, t, h1, h2, h3, -, h5, h6⟩ := bring (i := i) (p.deps i) (tasks_run acts tasks_init h) hi hw fun j hj => ⟨hj, hd j hj⟩
  refine ⟨more ++ [.exec i], { t with done := t.done ++ [i] }, ?_, by simp [h2], h3, fun a ha => ?_⟩
  · rw [run_append, h1]
    simp only [Option.bind_some, State.run, State.step]
    rw [if_pos ⟨by rw [h2]; exact hi, by rw [h3]; exact hw, by simpa [List.all_eq_true] using h5⟩]
    rfl
  · rcases List.mem_append.1 ha with ha | ha
    · exact .inr (h6 a ha)
    · exact .inl (by simpa using ha)

/-- Task 1 needs a result of its own worker that cannot be restored and one of another worker that can. -/
example : (State.init.run ⟨fun i => if i = 1 then [0, 2] else [], fun i => if i = 2 then 1 else 0, fun i => decide (i = 0)⟩
    [.exec 0, .exec 2, .ship 2 1, .exec 1]).map (fun s => (s.done, s.dead)) = some ([0, 2, 1], []) := by decide

/-- C142 (part), the loss: after a worker has ended none of its tasks is executed, nothing arrives there, and none of its results arrives at other workers. -/
theorem C142_ended_partial (p : Prog) (more : List Act) (s t : State) (w : Nat) (hw : w ∈ s.dead)
    (h : s.run p more = some t) : w ∈ t.dead ∧ (∀ i, p.place i = w → (i ∈ t.done ↔ i ∈ s.done)) ∧
      ∀ j v, p.place j = w ∨ v = w → ((j, v) ∈ t.has ↔ (j, v) ∈ s.has) :=
  ⟨(ended_run more w hw h).1, (ended_run more w hw h).2.1, fun j v hx => (ended_run more w hw h).2.2 (j, v) hx⟩

example : (State.init.run exBad [.exec 2, .exec 0, .ship 0 1]).map (fun s => (s.dead, (s.step exBad (.exec 3)).isSome)) = some ([1], false) := by decide

end Verif.Props
