import Verif.Model.SharedGet

/-! Invariants of `get` of one shared object when nothing is reclaimed during a `get`. -/
namespace Verif.SharedGet

/-- A process that is neither idle nor done. -/
def Busy : Phase → Prop
  | .idle => False
  | .got _ => False
  | _ => True

/-- What the phase of a process says about the hosts. -/
def PhaseOk (hosts : List Host) (q : Proc) : Prop :=
  match q.phase with
  | .idle => True
  | .pkg src slot => ∃ o, hosts[src]? = some o ∧ o.resv = some slot ∧ o.pub = some slot
  | .asking src => src ≠ q.host ∧ ∃ o t, hosts[src]? = some o ∧ o.resv = some t ∧ o.pub = some t
  | .copying src slot => src ≠ q.host ∧ (∃ o t, hosts[src]? = some o ∧ o.resv = some t ∧ o.pub = some t) ∧
      ∃ h, hosts[q.host]? = some h ∧ h.resv = some slot ∧ h.pub = none
  | .waiting slot => ∃ h, hosts[q.host]? = some h ∧ h.resv = some slot
  | .found slot => ∃ h, hosts[q.host]? = some h ∧ h.resv = some slot ∧ h.pub = some slot
  | .got right => right = true

/-- The invariant. -/
structure Inv (s : State) : Prop where
  pub : ∀ (k : Nat) (h : Host) (t : Nat), s.hosts[k]? = some h → h.pub = some t → h.resv = some t ∧ h.good = true
  copier : ∀ (k : Nat) (h : Host) (t : Nat), s.hosts[k]? = some h → h.resv = some t → h.pub = none →
    ∃ (p : Nat) (src : Nat), s.procs[p]? = some ⟨k, .copying src t⟩
  proc : ∀ (p : Nat) (q : Proc), s.procs[p]? = some q → PhaseOk s.hosts q
  home : ∀ (p : Nat) (q : Proc), s.procs[p]? = some q → q.host < s.hosts.length
  one : ∀ (p p' k src src' t t' : Nat), s.procs[p]? = some ⟨k, .copying src t⟩ → s.procs[p']? = some ⟨k, .copying src' t'⟩ → p = p'

theorem getElem?_set' {α : Type} {l : List α} {i j : Nat} {a b : α} (h : (l.set i a)[j]? = some b) :
    (i = j ∧ b = a ∧ i < l.length) ∨ (i ≠ j ∧ l[j]? = some b) := by
  rw [List.getElem?_set] at h
  split at h
  · split at h
    · left; cases h; exact ⟨by assumption, rfl, by assumption⟩
    · cases h
  · right; exact ⟨by assumption, h⟩

/-- The invariant after one process changed its phase and hosts stayed. -/
theorem inv_phase {s : State} {p : Nat} {q : Proc} {ph : Phase} (hi : Inv s) (hq : s.procs[p]? = some q)
    (hold : ∀ src t, q.phase ≠ .copying src t) (hnew : ∀ src t, ph ≠ .copying src t)
    (hok : PhaseOk s.hosts { q with phase := ph }) : Inv (s.setPhase p q ph) := by
  refine ⟨hi.pub, ?_, ?_, ?_, ?_⟩
  · intro k h t h1 h2 h3
    obtain ⟨p', src, h4⟩ := hi.copier k h t h1 h2 h3
    refine ⟨p', src, ?_⟩
    simp only [State.setPhase]
    rw [List.getElem?_set]
    split
    · rename_i e
      subst e
      rw [hq] at h4
      cases h4
      exact absurd rfl (hold src t)
    · exact h4
  · intro p' q' h
    rcases getElem?_set' h with ⟨-, rfl, -⟩ | ⟨-, h⟩
    · exact hok
    · exact hi.proc p' q' h
  · intro p' q' h
    rcases getElem?_set' h with ⟨-, rfl, -⟩ | ⟨-, h⟩
    · exact hi.home p q hq
    · exact hi.home p' q' h
  · intro p1 p2 k src src' t t' h1 h2
    rcases getElem?_set' h1 with ⟨-, e, -⟩ | ⟨-, h1⟩
    · cases e; exact absurd rfl (hnew src t)
    · rcases getElem?_set' h2 with ⟨-, e, -⟩ | ⟨-, h2⟩
      · cases e; exact absurd rfl (hnew src' t')
      · exact hi.one p1 p2 k src src' t t' h1 h2

/-- `PhaseOk` after a host changed without losing what it has. -/
theorem phaseOk_set {hosts : List Host} {k : Nat} {h h' : Host} {q : Proc} (hk : hosts[k]? = some h)
    (hres : ∀ t, h.resv = some t → h'.resv = some t) (hpub : ∀ t, h.pub = some t → h'.pub = some t)
    (hcop : ∀ src t, q.phase = .copying src t → q.host ≠ k ∨ (h.pub = none → h'.pub = none))
    (hok : PhaseOk hosts q) : PhaseOk (hosts.set k h') q := by
  have key : ∀ (j : Nat) (o : Host), hosts[j]? = some o → ∃ o', (hosts.set k h')[j]? = some o' ∧
      (∀ t, o.resv = some t → o'.resv = some t) ∧ (∀ t, o.pub = some t → o'.pub = some t) ∧
      ((j ≠ k ∨ (h.pub = none → h'.pub = none)) → o.pub = none → o'.pub = none) := by
    intro j o hj
    by_cases e : k = j
    · subst e
      rw [hk] at hj
      cases hj
      refine ⟨h', ?_, hres, hpub, ?_⟩
      · rw [List.getElem?_set]
        obtain ⟨hlt, -⟩ := List.getElem?_eq_some_iff.1 hk
        simp [hlt]
      · rintro (h1 | h1)
        · exact absurd rfl h1
        · exact h1
    · refine ⟨o, ?_, fun _ h => h, fun _ h => h, fun _ h => h⟩
      rw [List.getElem?_set]
      simp [e, hj]
  obtain ⟨host, phase⟩ := q
  cases phase with
  | idle => trivial
  | pkg src slot =>
    obtain ⟨o, h1, h2, h3⟩ := hok
    obtain ⟨o', k1, k2, k3, -⟩ := key _ _ h1
    exact ⟨o', k1, k2 _ h2, k3 _ h3⟩
  | asking src =>
    obtain ⟨h0, o, t, h1, h2, h3⟩ := hok
    obtain ⟨o', k1, k2, k3, -⟩ := key _ _ h1
    exact ⟨h0, o', t, k1, k2 _ h2, k3 _ h3⟩
  | copying src slot =>
    obtain ⟨h0, ⟨o, t, h1, h2, h3⟩, x, h4, h5, h6⟩ := hok
    obtain ⟨o', k1, k2, k3, -⟩ := key _ _ h1
    obtain ⟨x', m1, m2, -, m4⟩ := key _ _ h4
    exact ⟨h0, ⟨o', t, k1, k2 _ h2, k3 _ h3⟩, x', m1, m2 _ h5, m4 (hcop src slot rfl) h6⟩
  | waiting slot =>
    obtain ⟨x, h4, h5⟩ := hok
    obtain ⟨x', m1, m2, -, -⟩ := key _ _ h4
    exact ⟨x', m1, m2 _ h5⟩
  | found slot =>
    obtain ⟨x, h4, h5, h6⟩ := hok
    obtain ⟨x', m1, m2, m3, -⟩ := key _ _ h4
    exact ⟨x', m1, m2 _ h5, m3 _ h6⟩
  | got right => exact hok

theorem clearHosts_get : ∀ {hs hs' : List Host}, clearHosts hs = some hs' → hs'.length = hs.length ∧
    ∀ (k : Nat) (h' : Host), hs'[k]? = some h' → h'.resv = none ∧ ∃ h, hs[k]? = some h ∧ (h.pub = none → h'.pub = none) ∧
      (h.resv ≠ none → h'.pub = none)
  | [], hs', h => by cases h; simp
  | a :: t, hs', h => by
    simp only [clearHosts] at h
    split at h
    · rename_i a' t' ha ht
      cases h
      obtain ⟨h1, h2⟩ := clearHosts_get ht
      refine ⟨by simp [h1], ?_⟩
      intro k h' hk
      cases k with
      | zero =>
        simp only [List.getElem?_cons_zero, Option.some.injEq] at hk
        subst hk
        simp only [Host.clear] at ha
        split at ha
        · rename_i hr
          cases ha
          exact ⟨hr, _, rfl, fun h => h, fun h => absurd hr h⟩
        · split at ha
          · cases ha; exact ⟨rfl, _, rfl, fun _ => rfl, fun _ => rfl⟩
          · cases ha
      | succ k => exact h2 k h' (by simpa using hk)
    · cases h

/-- No `get` is under way when the object is cleaned up. -/
def Quiet : State → List Op → Prop
  | _, [] => True
  | s, op :: ops => (op = .cleanup → ∀ q ∈ s.procs, ¬ Busy q.phase) ∧ ∀ s', s.step op = some s' → Quiet s' ops

theorem inv_init (before after slot : Nat) (procs : List Nat) (hp : ∀ h ∈ procs, h < before + 1 + after) :
    Inv (State.init before after slot procs) := by
  have hh : ∀ (k : Nat) (h : Host), (State.init before after slot procs).hosts[k]? = some h →
      h = ⟨none, none, false, 0⟩ ∨ h = ⟨some slot, some slot, true, 1⟩ := by
    intro k h hk
    have := List.mem_of_getElem? hk
    simp only [State.init, List.mem_append, List.mem_replicate, List.mem_singleton] at this
    rcases this with (⟨-, h⟩ | h) | ⟨-, h⟩
    · exact Or.inl h
    · exact Or.inr h
    · exact Or.inl h
  have hq : ∀ (p : Nat) (q : Proc), (State.init before after slot procs).procs[p]? = some q → q.phase = .idle ∧ q.host ∈ procs := by
    intro p q hpq
    have := List.mem_of_getElem? hpq
    simp only [State.init, List.mem_map] at this
    obtain ⟨h, hh, rfl⟩ := this
    exact ⟨rfl, hh⟩
  refine ⟨?_, ?_, ?_, ?_, ?_⟩
  · intro k h t hk ht
    rcases hh k h hk with rfl | rfl
    · cases ht
    · exact ⟨ht, rfl⟩
  · intro k h t hk ht hn
    rcases hh k h hk with rfl | rfl
    · cases ht
    · cases hn
  · intro p q hpq
    unfold PhaseOk
    rw [(hq p q hpq).1]
    trivial
  · intro p q hpq
    have := hp _ (hq p q hpq).2
    simp only [State.init, List.length_append, List.length_replicate, List.length_singleton]
    exact this
  · intro p p' k src src' t t' h1 h2
    cases (hq p _ h1).1

theorem inv_step {s s' : State} {op : Op} (hi : Inv s) (hc : op = .cleanup → ∀ q ∈ s.procs, ¬ Busy q.phase)
    (h : s.step op = some s') : Inv s' := by
  cases op with
  | send p src =>
    simp only [State.step] at h
    split at h
    · rename_i q o hq ho
      split at h
      · rename_i slot hph hres
        split at h
        · rename_i hpub
          cases h
          exact inv_phase hi hq (by simp [hph]) (by simp) ⟨o, ho, hres, hpub⟩
        · cases h
      · cases h
    · cases h
  | check p =>
    simp only [State.step] at h
    split at h
    · rename_i q hq
      split at h
      · rename_i src slot o hph ho
        cases h
        have hok := hi.proc p q hq
        simp only [PhaseOk, hph] at hok
        obtain ⟨x, x1, x2, x3⟩ := hok
        by_cases e : o.pub = some slot
        · rw [if_pos e]
          exact inv_phase hi hq (by simp [hph]) (by simp) ⟨o, ho, (hi.pub _ o slot ho e).1, e⟩
        · rw [if_neg e]
          refine inv_phase hi hq (by simp [hph]) (by simp) ⟨?_, x, slot, x1, x2, x3⟩
          intro e'
          simp only at e'
          rw [e', ho] at x1
          cases x1
          exact e x3
      · cases h
    · cases h
  | reserve p slot =>
    simp only [State.step] at h
    split at h
    · rename_i q hq
      split at h
      · rename_i src o hph ho
        have hok := hi.proc p q hq
        simp only [PhaseOk, hph] at hok
        obtain ⟨hne, x, t, x1, x2, x3⟩ := hok
        split at h
        · rename_i t' ht'
          cases h
          exact inv_phase hi hq (by simp [hph]) (by simp) ⟨o, ho, ht'⟩
        · rename_i hnone
          cases h
          have hpn : o.pub = none := by
            cases hp : o.pub with
            | none => rfl
            | some v => rw [(hi.pub _ o v ho hp).1] at hnone; cases hnone
          have hlt : q.host < s.hosts.length := hi.home p q hq
          have hplt : p < s.procs.length := (List.getElem?_eq_some_iff.1 hq).1
          have hnoc : ∀ (p' src' t' : Nat), s.procs[p']? ≠ some ⟨q.host, .copying src' t'⟩ := by
            intro p' src' t' he
            obtain ⟨-, -, y, y1, y2, -⟩ := hi.proc p' _ he
            simp only at y1
            rw [ho] at y1
            cases y1
            rw [hnone] at y2
            cases y2
          refine ⟨?_, ?_, ?_, ?_, ?_⟩
          · intro k h' t' hk ht'
            rcases getElem?_set' hk with ⟨-, rfl, -⟩ | ⟨-, hk⟩
            · simp only [hpn] at ht'; cases ht'
            · exact hi.pub k h' t' hk ht'
          · intro k h' t' hk hr hp
            rcases getElem?_set' hk with ⟨rfl, rfl, -⟩ | ⟨-, hk⟩
            · simp only [Option.some.injEq] at hr
              subst hr
              refine ⟨p, src, ?_⟩
              simp only [State.setPhase]
              rw [List.getElem?_set]
              simp [hplt]
            · obtain ⟨p', src', h4⟩ := hi.copier k h' t' hk hr hp
              refine ⟨p', src', ?_⟩
              simp only [State.setPhase]
              rw [List.getElem?_set]
              split
              · rename_i e
                subst e
                rw [hq] at h4
                cases h4
                cases hph
              · exact h4
          · intro p' q' hp'
            rcases getElem?_set' hp' with ⟨-, rfl, -⟩ | ⟨-, hp'⟩
            · refine ⟨hne, ⟨x, t, ?_, x2, x3⟩, { o with resv := some slot, good := false }, ?_, rfl, hpn⟩
              · show (s.hosts.set _ _)[_]? = _
                rw [List.getElem?_set, if_neg (fun e => hne e.symm)]
                exact x1
              · show (s.hosts.set _ _)[_]? = _
                rw [List.getElem?_set]
                simp [hlt]
            · refine phaseOk_set ho (by simp [hnone]) (by simp) ?_ (hi.proc p' q' hp')
              intro src' t' _
              exact Or.inr fun h => h
          · intro p' q' hp'
            simp only [List.length_set]
            rcases getElem?_set' hp' with ⟨-, rfl, -⟩ | ⟨-, hp'⟩
            · exact hlt
            · exact hi.home p' q' hp'
          · intro p1 p2 k src1 src2 t1 t2 h1 h2
            rcases getElem?_set' h1 with ⟨e1, e, -⟩ | ⟨-, h1⟩
            · cases e
              rcases getElem?_set' h2 with ⟨e2, -, -⟩ | ⟨-, h2⟩
              · omega
              · exact absurd h2 (hnoc _ _ _)
            · rcases getElem?_set' h2 with ⟨e2, e, -⟩ | ⟨-, h2⟩
              · cases e; exact absurd h1 (hnoc _ _ _)
              · exact hi.one p1 p2 k src1 src2 t1 t2 h1 h2
      · cases h
    · cases h
  | copy p =>
    simp only [State.step] at h
    split at h
    · rename_i q hq
      split at h
      · rename_i src slot o hph ho
        have hok := hi.proc p q hq
        simp only [PhaseOk, hph] at hok
        obtain ⟨hne, ⟨x, t, x1, x2, x3⟩, y, y1, y2, y3⟩ := hok
        rw [ho] at y1
        cases y1
        rw [x1] at h
        simp only [x2] at h
        cases h
        have hgood : x.good = true := (hi.pub _ x t x1 x3).2
        have hlt : q.host < s.hosts.length := hi.home p q hq
        have hq' : s.procs[p]? = some ⟨q.host, .copying src slot⟩ := by rw [hq, ← hph]
        refine ⟨?_, ?_, ?_, ?_, ?_⟩
        · intro k h' t' hk ht'
          rcases getElem?_set' hk with ⟨-, rfl, -⟩ | ⟨-, hk⟩
          · simp only [Option.some.injEq] at ht'
            subst ht'
            exact ⟨y2, hgood⟩
          · exact hi.pub k h' t' hk ht'
        · intro k h' t' hk hr hp
          rcases getElem?_set' hk with ⟨rfl, rfl, -⟩ | ⟨hkne, hk⟩
          · cases hp
          · obtain ⟨p', src', h4⟩ := hi.copier k h' t' hk hr hp
            refine ⟨p', src', ?_⟩
            simp only [State.setPhase]
            rw [List.getElem?_set]
            split
            · rename_i e
              subst e
              rw [hq'] at h4
              cases h4
              exact absurd rfl hkne
            · exact h4
        · intro p' q' hp'
          rcases getElem?_set' hp' with ⟨-, rfl, -⟩ | ⟨hpp, hp'⟩
          · refine ⟨{ o with pub := some slot, good := x.good, refs := 1 }, ?_, y2, rfl⟩
            show (s.hosts.set _ _)[_]? = _
            rw [List.getElem?_set]
            simp [hlt]
          · refine phaseOk_set ho (fun t h => h) (by simp [y3]) ?_ (hi.proc p' q' hp')
            intro src' t' hph'
            left
            intro e
            apply hpp
            refine hi.one p p' q.host src src' slot t' hq' ?_
            rw [hp']
            obtain ⟨qh, qp⟩ := q'
            simp only at hph' e
            rw [hph', e]
        · intro p' q' hp'
          simp only [List.length_set]
          rcases getElem?_set' hp' with ⟨-, rfl, -⟩ | ⟨-, hp'⟩
          · exact hlt
          · exact hi.home p' q' hp'
        · intro p1 p2 k src1 src2 t1 t2 h1 h2
          rcases getElem?_set' h1 with ⟨-, e, -⟩ | ⟨-, h1⟩
          · cases e
          · rcases getElem?_set' h2 with ⟨-, e, -⟩ | ⟨-, h2⟩
            · cases e
            · exact hi.one p1 p2 k src1 src2 t1 t2 h1 h2
      · cases h
    · cases h
  | poll p =>
    simp only [State.step] at h
    split at h
    · rename_i q hq
      split at h
      · rename_i slot o hph ho
        cases h
        split
        · rename_i e
          exact inv_phase hi hq (by simp [hph]) (by simp) ⟨o, ho, (hi.pub _ o slot ho e).1, e⟩
        · exact hi
      · cases h
    · cases h
  | register p =>
    simp only [State.step] at h
    split at h
    · rename_i q hq
      split at h
      · rename_i slot o hph ho
        cases h
        have hok := hi.proc p q hq
        simp only [PhaseOk, hph] at hok
        obtain ⟨y, y1, y2, y3⟩ := hok
        rw [ho] at y1
        cases y1
        have h1 := inv_phase (ph := .got o.good) hi hq (by simp [hph]) (by simp) (hi.pub _ o slot ho y3).2
        refine ⟨?_, ?_, ?_, ?_, h1.one⟩
        · intro k h' t' hk ht'
          rcases getElem?_set' hk with ⟨-, rfl, -⟩ | ⟨-, hk⟩
          · exact hi.pub _ o t' ho ht'
          · exact hi.pub k h' t' hk ht'
        · intro k h' t' hk hr hp
          rcases getElem?_set' hk with ⟨rfl, rfl, -⟩ | ⟨-, hk⟩
          · exact h1.copier _ o t' ho hr hp
          · exact h1.copier k h' t' hk hr hp
        · intro p' q' hp'
          exact phaseOk_set ho (fun t h => h) (fun t h => h) (fun _ _ _ => Or.inr fun h => h) (h1.proc p' q' hp')
        · intro p' q' hp'
          simp only [List.length_set]
          exact h1.home p' q' hp'
      · cases h
    · cases h
  | drop k =>
    simp only [State.step] at h
    split at h
    · rename_i o ho
      split at h
      · cases h
      · cases h
        refine ⟨?_, ?_, ?_, ?_, hi.one⟩
        · intro k' h' t' hk ht'
          rcases getElem?_set' hk with ⟨-, rfl, -⟩ | ⟨-, hk⟩
          · exact hi.pub _ o t' ho ht'
          · exact hi.pub k' h' t' hk ht'
        · intro k' h' t' hk hr hp
          rcases getElem?_set' hk with ⟨rfl, rfl, -⟩ | ⟨-, hk⟩
          · exact hi.copier _ o t' ho hr hp
          · exact hi.copier k' h' t' hk hr hp
        · intro p' q' hp'
          exact phaseOk_set ho (fun t h => h) (fun t h => h) (fun _ _ _ => Or.inr fun h => h) (hi.proc p' q' hp')
        · intro p' q' hp'
          simp only [List.length_set]
          exact hi.home p' q' hp'
    · cases h
  | leave p =>
    simp only [State.step] at h
    split at h
    · rename_i q hq
      split at h
      · rename_i r hph
        cases h
        exact inv_phase hi hq (by simp [hph]) (by simp) trivial
      · cases h
    · cases h
  | cleanup =>
    simp only [State.step] at h
    split at h
    · obtain ⟨hs, hcl, rfl⟩ := Option.map_eq_some_iff.1 h
      obtain ⟨hlen, hget⟩ := clearHosts_get hcl
      have hidle := hc rfl
      refine ⟨?_, ?_, ?_, ?_, hi.one⟩
      · intro k h' t' hk ht'
        obtain ⟨-, o, ho, hn, hr⟩ := hget k h' hk
        exfalso
        cases hp : o.pub with
        | none => rw [hn hp] at ht'; cases ht'
        | some v => rw [hr (by rw [(hi.pub k o v ho hp).1]; simp)] at ht'; cases ht'
      · intro k h' t' hk hr' hp'
        rw [(hget k h' hk).1] at hr'
        cases hr'
      · intro p' q' hp'
        have h1 := hi.proc p' q' hp'
        have h2 := hidle q' (List.mem_of_getElem? hp')
        obtain ⟨host, phase⟩ := q'
        cases phase with
        | idle => trivial
        | got r => exact h1
        | _ => exact absurd trivial h2
      · intro p' q' hp'
        simp only [hlen]
        exact hi.home p' q' hp'
    · cases h; exact hi

theorem inv_run : ∀ (ops : List Op) {s s' : State}, Inv s → Quiet s ops → s.run ops = some s' → Inv s'
  | [], s, s', hi, _, h => by cases h; exact hi
  | op :: ops, s, s', hi, hq, h => by
    simp only [State.run] at h
    obtain ⟨s1, h1, h2⟩ := Option.bind_eq_some_iff.1 h
    exact inv_run ops (inv_step hi hq.1 h1) (hq.2 s1 h1) h2

end Verif.SharedGet
