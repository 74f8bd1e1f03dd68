import Verif.Model.StoreStart
import Verif.Props.SegmentStart

/-!
# C133 All processes start the shared store together
-/
namespace Verif.Props
open Verif.SegmentSizes Verif.StoreStart

/-- The host has a single process. -/
def SingleProcess (ps : List Proc) (h : Nat) : Prop := ∃ p, ps.filter (fun q => q.host == h) = [p]

/-- The process has no reason to refuse: the configured sizes fit into the memory it reads, and for the root every host has a second
process. -/
def Content (c : Config) (ps : List Proc) (p : Proc) : Prop :=
  c.objMem.getD 0 + c.svcMem.getD 0 ≤ p.avail * 95 / 100 ∧ (p.root = true → ∀ q ∈ ps, ¬ SingleProcess ps q.host)

/-- The process breaks down when the memory of its host is set up. -/
def BreaksDown (c : Config) (ps : List Proc) (p : Proc) : Prop :=
  SingleProcess ps p.host ∨ (p.monitor = true ∧ ¬ RoomForRecord c p.avail)

/-- Every process can start the store. -/
def AllFit (c : Config) (ps : List Proc) : Prop := ∀ q ∈ ps, Content c ps q ∧ ¬ BreaksDown c ps q

/-- The process is in a collective call. -/
def InCall (a : At) : Prop := a = .allocating ∨ a = .grouping ∨ a = .barrier

/-- Nothing more happens. -/
def AtRest (c : Config) (s : State) : Prop := ∀ a, step c s a = none

/-- Meaningful numbers: sizes are not negative, memories below 64 TiB. -/
def SaneStart (c : Config) (ps : List Proc) : Prop := SaneConfig c ∧ ∀ p ∈ ps, 0 ≤ p.avail ∧ p.avail < 2 ^ 46

/-- Every host has a process beside its monitor. -/
def Accompanied (ps : List Proc) : Prop := ∀ p ∈ ps, p.monitor = true → ∃ q ∈ ps, q.host = p.host ∧ q.monitor = false

/-- **C133**, full claim: whatever is configured and whatever memory the processes read, nobody waits for ever in `init`. -/
def C133_full : Prop :=
  ∀ (c : Config) (ps : List Proc) (acts : List Act) (s : State), SaneStart c ps → Accompanied ps →
    run c (.init ps) acts = some s → AtRest c s → ∀ e ∈ s, ¬ InCall e.stage

/-! ### The invariant -/

/-- The process may go on. -/
private def ok (c : Config) (ps : List Proc) (p : Proc) : Prop :=
  (SegmentSizes.allocate c p.avail).isSome ∧ (p.root = true → ∀ q ∈ ps, ¬ SingleProcess ps q.host)

private def hostOk (c : Config) (ps : List Proc) (p : Proc) : Prop := ∀ q ∈ ps, q.host = p.host → ok c ps q

private def bad (c : Config) (ps : List Proc) (p : Proc) : Prop :=
  SingleProcess ps p.host ∨ (p.monitor = true ∧ start c p.avail = .failed)

private def good (c : Config) (ps : List Proc) (p : Proc) : Prop := hostOk c ps p ∧ ¬ bad c ps p

private def claim (c : Config) (ps : List Proc) (p : Proc) : At → Prop
  | .begins => True
  | .allocating => ok c ps p
  | .refused => ¬ ok c ps p
  | .filling => hostOk c ps p ∧ p.monitor = true ∧ ¬ SingleProcess ps p.host
  | .failed => hostOk c ps p ∧ bad c ps p
  | .grouping => good c ps p ∧ p.monitor = true
  | .barrier => good c ps p ∧ (p.monitor = true → ∀ q ∈ ps, q.monitor = true → good c ps q)
  | .ready => ∀ q ∈ ps, good c ps q

private def past : At → Bool
  | .filling | .failed | .grouping | .barrier | .ready => true
  | _ => false

private def late : At → Bool
  | .barrier | .ready => true
  | _ => false

private structure StartInv (c : Config) (ps : List Proc) (s : State) : Prop where
  procs : s.map (·.proc) = ps
  claims : ∀ e ∈ s, claim c ps e.proc e.stage
  hosts : ∀ e ∈ s, past e.stage = true → ∀ e' ∈ s, e'.proc.host = e.proc.host → past e'.stage = true
  monitors : ∀ e ∈ s, e.proc.monitor = true → late e.stage = true → ∀ e' ∈ s, e'.proc.monitor = true → late e'.stage = true
  ready : ∀ e ∈ s, e.stage = .ready → ∀ e' ∈ s, e'.stage = .ready

private theorem start_init (c : Config) (ps : List Proc) : StartInv c ps (.init ps) where
  procs := by rw [State.init, List.map_map]; exact List.map_id ps
  claims := by simp [State.init, claim]
  hosts := by simp [State.init, past]
  monitors := by simp [State.init, late]
  ready := by simp [State.init]

private theorem single_iff {ps : List Proc} {s : State} (hp : s.map (·.proc) = ps) (h : Nat) :
    s.single h = true ↔ SingleProcess ps h := by
  subst hp
  have : (s.filter fun e => e.proc.host == h).map (·.proc) = (s.map (·.proc)).filter (fun q => q.host == h) := by
    rw [List.filter_map]; rfl
  simp only [State.single, beq_iff_eq, SingleProcess, ← this]
  rw [← List.length_map (f := (·.proc)) (as := s.filter fun e => e.proc.host == h), List.length_eq_one_iff]

private theorem accepts_iff {c : Config} {ps : List Proc} {s : State} (hp : s.map (·.proc) = ps) (p : Proc) :
    s.accepts c p = true ↔ ok c ps p := by
  have : (s.any fun e => s.single e.proc.host) = true ↔ ∃ q ∈ ps, SingleProcess ps q.host := by
    rw [List.any_eq_true, ← hp]
    constructor
    · rintro ⟨e, he, h⟩; exact ⟨e.proc, List.mem_map_of_mem he, (single_iff rfl _).1 h⟩
    · rintro ⟨q, hq, h⟩
      obtain ⟨e, he, rfl⟩ := List.mem_map.1 hq
      exact ⟨e, he, (single_iff rfl _).2 h⟩
  simp only [State.accepts, Bool.and_eq_true, Bool.not_eq_true', Bool.and_eq_false_iff, ok]
  rw [Bool.eq_false_iff (b := s.any _), ne_eq, this]
  cases hr : p.root <;> simp [and_comm]

private theorem set_inv {c : Config} {ps : List Proc} {s : State} (hi : StartInv c ps s) {i : Nat} {p : Proc} {x y : At}
    (h : s[i]? = some ⟨p, y⟩) (hy : late y = false) (hx : late x = false) (hp : past x = past y) (hc : claim c ps p x) :
    StartInv c ps (s.set i ⟨p, x⟩) := by
  have hm : (⟨p, y⟩ : Entry) ∈ s := List.mem_of_getElem? h
  have hmem : ∀ e ∈ s.set i ⟨p, x⟩, e = ⟨p, x⟩ ∨ e ∈ s := fun e he => (List.mem_or_eq_of_mem_set he).symm
  constructor
  · rw [List.map_set, ← hi.procs]
    obtain ⟨hlt, hg⟩ := List.getElem?_eq_some_iff.1 h
    apply List.ext_getElem (by simp)
    intro j h1 h2
    rw [List.getElem_set]
    split
    · rename_i hij; subst hij; simp [hg]
    · rfl
  · intro e he
    rcases hmem e he with rfl | he
    · exact hc
    · exact hi.claims e he
  · intro e he hpe e' he' hh
    have key : ∀ e' ∈ s, e'.proc.host = e.proc.host → past e'.stage = true := by
      rcases hmem e he with rfl | he
      · exact hi.hosts ⟨p, y⟩ hm (hp ▸ hpe)
      · exact hi.hosts e he hpe
    rcases hmem e' he' with rfl | he'
    · exact hp ▸ key _ hm hh
    · exact key e' he' hh
  · intro e he hmo hl e' he' hmo'
    rcases hmem e he with rfl | he
    · simp only at hl; rw [hx] at hl; cases hl
    · have key := hi.monitors e he hmo hl
      rcases hmem e' he' with rfl | he'
      · have := key _ hm hmo'; simp only at this; rw [hy] at this; cases this
      · exact key e' he' hmo'
  · intro e he hr e' he'
    rcases hmem e he with rfl | he
    · simp only at hr; rw [hr] at hx; cases hx
    · have key := hi.ready e he hr
      rcases hmem e' he' with rfl | he'
      · have := key _ hm; simp only at this; rw [this] at hy; cases hy
      · exact key e' he'

private theorem start_step {c : Config} {ps : List Proc} {s s' : State} {a : Act} (hi : StartInv c ps s) (h : step c s a = some s') :
    StartInv c ps s' := by
  cases a with
  | sizes i =>
    simp only [step] at h
    split at h
    · rename_i p hg
      cases h
      by_cases ha : s.accepts c p = true
      · rw [if_pos ha]
        exact set_inv hi hg rfl rfl rfl ((accepts_iff hi.procs p).1 ha)
      · rw [if_neg ha]
        exact set_inv hi hg rfl rfl rfl (fun h => ha ((accepts_iff hi.procs p).2 h))
    · cases h
  | fill i =>
    simp only [step] at h
    split at h
    · rename_i p hg
      cases h
      obtain ⟨h1, h2, h3⟩ := hi.claims _ (List.mem_of_getElem? hg)
      by_cases ha : start c p.avail = .failed
      · rw [if_pos ha]
        exact set_inv hi hg rfl rfl rfl ⟨h1, .inr ⟨h2, ha⟩⟩
      · rw [if_neg ha]
        exact set_inv hi hg rfl rfl rfl ⟨⟨h1, fun hb => hb.elim h3 fun hb => ha hb.2⟩, h2⟩
    · cases h
  | allocate h0 =>
    simp only [step] at h
    split at h
    · rename_i hg
      simp only [Bool.and_eq_true, List.any_eq_true, beq_iff_eq, List.all_eq_true, Bool.or_eq_true, bne_iff_ne, ne_eq] at hg
      obtain ⟨⟨w, hw, hwh⟩, hall⟩ := hg
      have hall : ∀ e ∈ s, e.proc.host = h0 → e.stage = .allocating := fun e he hh => (hall e he).resolve_left (fun h => h hh)
      cases h
      have hok : ∀ q ∈ ps, q.host = h0 → ok c ps q := by
        intro q hq hh
        rw [← hi.procs] at hq
        obtain ⟨e, he, rfl⟩ := List.mem_map.1 hq
        have := hi.claims e he
        rw [hall e he hh] at this
        exact this
      constructor
      · rw [List.map_map, ← hi.procs]
        apply List.map_congr_left
        intro e _
        simp only [Function.comp]
        split <;> rfl
      · intro e he
        replace he := List.mem_map.1 he; obtain ⟨e, he, rfl⟩ := he
        split
        · rename_i hh
          have hho : hostOk c ps e.proc := fun q hq hqh => hok q hq (hqh.trans hh)
          by_cases hs : s.single h0 = true
          · simp only [hs, if_true]
            exact ⟨hho, .inl (by rw [hh]; exact (single_iff hi.procs h0).1 hs)⟩
          · have hn : ¬ SingleProcess ps e.proc.host := fun h => hs ((single_iff hi.procs h0).2 (hh ▸ h))
            rw [Bool.not_eq_true] at hs
            simp only [hs, Bool.false_eq_true, if_false]
            cases hmo : e.proc.monitor
            · exact ⟨⟨hho, fun hb => hb.elim hn fun hb => by rw [hmo] at hb; cases hb.1⟩, fun h => by rw [hmo] at h; cases h⟩
            · exact ⟨hho, hmo, hn⟩
        · exact hi.claims e he
      · intro e he hpe e' he' hh
        replace he := List.mem_map.1 he; obtain ⟨e, he, rfl⟩ := he
        replace he' := List.mem_map.1 he'; obtain ⟨e', he', rfl⟩ := he'
        have hproc : ∀ e : Entry, (if e.proc.host = h0 then
            ({ e with stage := if s.single h0 then .failed else if e.proc.monitor then .filling else .barrier } : Entry) else e).proc =
            e.proc := fun e => by split <;> rfl
        rw [hproc, hproc] at hh
        by_cases h1 : e'.proc.host = h0
        · rw [if_pos h1]
          dsimp only
          split
          · rfl
          · split <;> rfl
        · rw [if_neg h1]
          rw [if_neg (by rw [← hh]; exact h1)] at hpe
          exact hi.hosts e he hpe e' he' hh
      · intro e he hmo hl e' he' hmo'
        replace he := List.mem_map.1 he; obtain ⟨e, he, rfl⟩ := he
        replace he' := List.mem_map.1 he'; obtain ⟨e', he', rfl⟩ := he'
        have hproc : ∀ e : Entry, (if e.proc.host = h0 then
            ({ e with stage := if s.single h0 then .failed else if e.proc.monitor then .filling else .barrier } : Entry) else e).proc =
            e.proc := fun e => by split <;> rfl
        rw [hproc] at hmo hmo'
        by_cases h1 : e.proc.host = h0
        · rw [if_pos h1] at hl
          dsimp only at hl
          rw [if_pos hmo] at hl
          split at hl <;> cases hl
        · rw [if_neg h1] at hl
          have := hi.monitors e he hmo hl e' he' hmo'
          by_cases h2 : e'.proc.host = h0
          · rw [hall e' he' h2] at this; cases this
          · rw [if_neg h2]; exact this
      · intro e he hr e' he'
        replace he := List.mem_map.1 he; obtain ⟨e, he, rfl⟩ := he
        by_cases h1 : e.proc.host = h0
        · rw [if_pos h1] at hr
          dsimp only at hr
          split at hr
          · cases hr
          · split at hr <;> cases hr
        · rw [if_neg h1] at hr
          have := hi.ready e he hr w hw
          rw [hall w hw hwh] at this
          cases this
    · cases h
  | group =>
    simp only [step] at h
    split at h
    · rename_i hg
      simp only [Bool.and_eq_true, List.any_eq_true, beq_iff_eq, List.all_eq_true, Bool.or_eq_true, Bool.not_eq_true'] at hg
      obtain ⟨⟨w, hw, hwm⟩, hall⟩ := hg
      have hall : ∀ e ∈ s, e.proc.monitor = true → e.stage = .grouping := fun e he hm =>
        (hall e he).resolve_left (by rw [hm]; decide)
      cases h
      have hgood : ∀ q ∈ ps, q.monitor = true → good c ps q := by
        intro q hq hm
        rw [← hi.procs] at hq
        obtain ⟨e, he, rfl⟩ := List.mem_map.1 hq
        have := hi.claims e he
        rw [hall e he hm] at this
        exact this.1
      have hproc : ∀ e : Entry, (if e.proc.monitor = true then ({ e with stage := .barrier } : Entry) else e).proc = e.proc :=
        fun e => by split <;> rfl
      constructor
      · rw [List.map_map, ← hi.procs]
        exact List.map_congr_left fun e _ => hproc e
      · intro e he
        replace he := List.mem_map.1 he; obtain ⟨e, he, rfl⟩ := he
        split
        · rename_i hm
          exact ⟨hgood e.proc (by rw [← hi.procs]; exact List.mem_map_of_mem he) hm, fun _ => hgood⟩
        · exact hi.claims e he
      · intro e he hpe e' he' hh
        replace he := List.mem_map.1 he; obtain ⟨e, he, rfl⟩ := he
        replace he' := List.mem_map.1 he'; obtain ⟨e', he', rfl⟩ := he'
        rw [hproc, hproc] at hh
        have hpa : past e.stage = true := by
          by_cases hm : e.proc.monitor = true
          · rw [hall e he hm]; rfl
          · rw [if_neg hm] at hpe; exact hpe
        have := hi.hosts e he hpa e' he' hh
        split
        · rfl
        · exact this
      · intro e he _ _ e' he' hm
        replace he' := List.mem_map.1 he'; obtain ⟨e', he', rfl⟩ := he'
        rw [hproc] at hm
        rw [if_pos hm]; rfl
      · intro e he hr e' he'
        replace he := List.mem_map.1 he; obtain ⟨e, he, rfl⟩ := he
        by_cases hm : e.proc.monitor = true
        · rw [if_pos hm] at hr; cases hr
        · rw [if_neg hm] at hr
          have := hi.ready e he hr w hw
          rw [hall w hw hwm] at this
          cases this
    · cases h
  | pass =>
    simp only [step] at h
    split at h
    · rename_i hg
      simp only [Bool.and_eq_true, List.all_eq_true, beq_iff_eq] at hg
      have hall := hg.2
      cases h
      constructor
      · rw [List.map_map, ← hi.procs]; rfl
      · intro e he
        replace he := List.mem_map.1 he; obtain ⟨e, he, rfl⟩ := he
        intro q hq
        rw [← hi.procs] at hq
        obtain ⟨e', he', rfl⟩ := List.mem_map.1 hq
        have := hi.claims e' he'
        rw [hall e' he'] at this
        exact this.1
      · intro e he _ e' he' _
        replace he' := List.mem_map.1 he'; obtain ⟨e', he', rfl⟩ := he'
        rfl
      · intro e he _ _ e' he' _
        replace he' := List.mem_map.1 he'; obtain ⟨e', he', rfl⟩ := he'
        rfl
      · intro e he _ e' he'
        replace he' := List.mem_map.1 he'; obtain ⟨e', he', rfl⟩ := he'
        rfl
    · cases h

private theorem start_run {c : Config} {ps : List Proc} : ∀ (acts : List Act) {s s' : State}, StartInv c ps s →
    StoreStart.run c s acts = some s' → StartInv c ps s'
  | [], _, _, hi, h => by cases h; exact hi
  | a :: as, s, s', hi, h => by
    obtain ⟨t, ht, h⟩ := Option.bind_eq_some_iff.1 h
    exact start_run as (start_step hi ht) h

/-- Where every process is in the end. -/
private theorem stuck_stage {c : Config} {ps : List Proc} {s : State} (hi : StartInv c ps s) (hs : AtRest c s) :
    ∀ e ∈ s, (¬ ok c ps e.proc → e.stage = .refused) ∧
      (ok c ps e.proc → ¬ hostOk c ps e.proc → e.stage = .allocating) ∧
      (hostOk c ps e.proc → bad c ps e.proc → e.stage = .failed) ∧
      (good c ps e.proc → (¬ ∀ q ∈ ps, good c ps q) → e.stage = .grouping ∨ e.stage = .barrier) ∧
      ((∀ q ∈ ps, good c ps q) → e.stage = .ready) := by
  have hmem : ∀ e ∈ s, e.proc ∈ ps := fun e he => by rw [← hi.procs]; exact List.mem_map_of_mem he
  have hself : ∀ e ∈ s, hostOk c ps e.proc → ok c ps e.proc := fun e he h => h e.proc (hmem e he) rfl
  have hb : ∀ e ∈ s, e.stage ≠ .begins := by
    rintro ⟨p, st⟩ he h
    simp only at h; subst h
    obtain ⟨i, hlt, hg⟩ := List.mem_iff_getElem.1 he
    have := hs (.sizes i)
    simp [step, List.getElem?_eq_getElem hlt, hg] at this
  have hf : ∀ e ∈ s, e.stage ≠ .filling := by
    rintro ⟨p, st⟩ he h
    simp only at h; subst h
    obtain ⟨i, hlt, hg⟩ := List.mem_iff_getElem.1 he
    have := hs (.fill i)
    simp [step, List.getElem?_eq_getElem hlt, hg] at this
  have hpast : ∀ e ∈ s, hostOk c ps e.proc → past e.stage = true := by
    intro e he hho
    apply Classical.byContradiction
    intro hn
    have hall : ∀ e' ∈ s, e'.proc.host = e.proc.host → e'.stage = .allocating := by
      intro e' he' hh
      have h1 : ¬ past e'.stage = true := fun h => hn (hi.hosts e' he' h e he hh.symm)
      have h2 := hi.claims e' he'
      have h3 := hho e'.proc (hmem e' he') hh
      cases hst : e'.stage <;> rw [hst] at h1 h2
      · exact absurd hst (hb e' he')
      all_goals first | rfl | exact absurd rfl h1 | exact absurd h3 h2
    have := hs (.allocate e.proc.host)
    simp only [step] at this
    rw [if_pos] at this
    · cases this
    · simp only [Bool.and_eq_true, List.any_eq_true, beq_iff_eq, List.all_eq_true, Bool.or_eq_true, bne_iff_ne, ne_eq]
      refine ⟨⟨e, he, rfl⟩, fun e' he' => ?_⟩
      by_cases hh : e'.proc.host = e.proc.host
      · exact .inr (hall e' he' hh)
      · exact .inl hh
  intro e he
  have hc := hi.claims e he
  have hb := hb e he
  have hfe := hf e he
  refine ⟨fun hn => ?_, fun h1 hn => ?_, fun h1 h2 => ?_, fun h1 h2 => ?_, fun hall => ?_⟩
  · cases hst : e.stage <;> rw [hst] at hc hb hfe
    all_goals first
      | rfl
      | exact absurd rfl hb
      | exact absurd hc hn
      | exact absurd rfl hfe
      | exact absurd (hself e he hc.1.1) hn
      | exact absurd (hself e he (hc e.proc (hmem e he)).1) hn
      | exact absurd (hself e he hc.1) hn
  · cases hst : e.stage <;> rw [hst] at hc hb hfe
    all_goals first
      | rfl
      | exact absurd rfl hb
      | exact absurd rfl hfe
      | exact absurd hc.1.1 hn
      | exact absurd (hc e.proc (hmem e he)).1 hn
      | exact absurd h1 hc
      | exact absurd hc.1 hn
  · have hp := hpast e he h1
    cases hst : e.stage <;> rw [hst] at hc hp hfe
    all_goals first
      | rfl
      | exact absurd rfl hfe
      | exact absurd h2 hc.1.2
      | exact absurd h2 (hc e.proc (hmem e he)).2
      | cases hp
  · have hp := hpast e he h1.1
    cases hst : e.stage <;> rw [hst] at hc hp hfe
    all_goals first
      | exact absurd rfl hfe
      | exact .inl rfl
      | exact .inr rfl
      | exact absurd hc h2
      | exact absurd hc.2 h1.2
      | cases hp
  · have hst : ∀ e ∈ s, e.stage = .grouping ∧ e.proc.monitor = true ∨ late e.stage = true := by
      intro e he
      have hg := hall e.proc (hmem e he)
      have hp := hpast e he hg.1
      have hc := hi.claims e he
      have hfe := hf e he
      cases hst : e.stage <;> rw [hst] at hc hp hfe
      all_goals first
        | exact absurd rfl hfe
        | exact .inl ⟨rfl, hc.2⟩
        | exact .inr rfl
        | exact absurd hc.2 hg.2
        | cases hp
    have hlate : ∀ e ∈ s, late e.stage = true := by
      intro e he
      refine (hst e he).resolve_left fun hg => ?_
      have := hs .group
      simp only [step] at this
      rw [if_pos] at this
      · cases this
      · simp only [Bool.and_eq_true, List.any_eq_true, beq_iff_eq, List.all_eq_true, Bool.or_eq_true, Bool.not_eq_true']
        refine ⟨⟨e, he, hg.2⟩, fun e' he' => ?_⟩
        cases hm : e'.proc.monitor
        · exact .inl rfl
        · refine .inr (((hst e' he').resolve_right fun hl => ?_).1)
          have := hi.monitors e' he' hm hl e he hg.2
          rw [hg.1] at this; cases this
    apply Classical.byContradiction
    intro hn
    have hbar : ∀ e' ∈ s, e'.stage = .barrier := by
      intro e' he'
      have hl := hlate e' he'
      cases hst : e'.stage <;> rw [hst] at hl <;> first | rfl | cases hl | skip
      exact absurd (hi.ready e' he' hst e he) hn
    have := hs .pass
    simp only [step] at this
    rw [if_pos] at this
    · cases this
    · simp only [Bool.and_eq_true, List.all_eq_true, beq_iff_eq, Bool.not_eq_true']
      exact ⟨by cases s with | nil => cases he | cons _ _ => rfl, hbar⟩

/-! ### C133 -/

private theorem ok_iff {c : Config} {ps : List Proc} (h : SaneStart c ps) {p : Proc} (hp : p ∈ ps) : ok c ps p ↔ Content c ps p := by
  have := C12_refused_iff_does_not_fit c p.avail h.1 (h.2 p hp).1 (h.2 p hp).2
  have hs : (SegmentSizes.allocate c p.avail).isSome = true ↔ c.objMem.getD 0 + c.svcMem.getD 0 ≤ p.avail * 95 / 100 := by
    rw [Option.isSome_iff_ne_none, ne_eq, this]; omega
  rw [ok, Content, hs]

private theorem bad_iff {c : Config} {ps : List Proc} (h : SaneStart c ps) {p : Proc} (hp : p ∈ ps) (ho : ok c ps p) :
    bad c ps p ↔ BreaksDown c ps p := by
  have := (C108_exactly_partial c p.avail h.1 (h.2 p hp).1 (h.2 p hp).2).2
  have hf := ((ok_iff h hp).1 ho).1
  simp only [bad, BreaksDown, this, hf, true_and]

/-- Two hosts with a root or worker and a monitor each. The second host has less memory. -/
def exSmallHost : List Proc :=
  [⟨true, 0, false, 1000000000⟩, ⟨false, 0, true, 1000000000⟩, ⟨false, 1, true, 400000000⟩, ⟨false, 1, false, 400000000⟩]

/-- The code violates C133: 500 million bytes are configured for the objects. The processes of the second host refuse, and the main
process and its monitor wait for them for ever. -/
theorem C133_violated : ¬ C133_full ∧
    ∃ s, StoreStart.run ⟨some 500000000, none, 100000⟩ (.init exSmallHost)
        [.sizes 0, .sizes 1, .sizes 2, .sizes 3, .allocate 0, .fill 1] = some s ∧
      s.map (·.stage) = [.barrier, .grouping, .refused, .refused] ∧ AtRest ⟨some 500000000, none, 100000⟩ s := by
  have hrun : StoreStart.run ⟨some 500000000, none, 100000⟩ (.init exSmallHost)
      [.sizes 0, .sizes 1, .sizes 2, .sizes 3, .allocate 0, .fill 1] =
      some [⟨⟨true, 0, false, 1000000000⟩, .barrier⟩, ⟨⟨false, 0, true, 1000000000⟩, .grouping⟩,
        ⟨⟨false, 1, true, 400000000⟩, .refused⟩, ⟨⟨false, 1, false, 400000000⟩, .refused⟩] := by decide +kernel
  have hst : AtRest ⟨some 500000000, none, 100000⟩ [⟨⟨true, 0, false, 1000000000⟩, .barrier⟩, ⟨⟨false, 0, true, 1000000000⟩, .grouping⟩,
        ⟨⟨false, 1, true, 400000000⟩, .refused⟩, ⟨⟨false, 1, false, 400000000⟩, .refused⟩] := by
    intro a
    cases a with
    | sizes i => rcases i with _ | _ | _ | _ | i <;> simp [step]
    | fill i => rcases i with _ | _ | _ | _ | i <;> simp [step]
    | allocate h => rcases h with _ | _ | h <;> simp [step]
    | group => simp [step]
    | pass => simp [step]
  refine ⟨fun h => ?_, _, hrun, rfl, hst⟩
  have := h _ exSmallHost _ _ ⟨⟨by simp, by simp, by decide⟩, by decide⟩ (by unfold Accompanied; decide) hrun hst _ (List.mem_cons_self)
  exact this (.inr (.inr rfl))

/-- **C133**, exactly: when nothing more happens, a process has refused exactly if it has a reason, it has broken down exactly if all
processes of its host went on and the memory cannot be set up, and it is ready exactly if every process can start the store; in all other
cases it waits in a collective call for ever. Missing: that nobody waits (`C133_violated`). -/
theorem C133_exactly_partial (c : Config) (ps : List Proc) (acts : List Act) (s : State) (hc : SaneStart c ps)
    (hr : StoreStart.run c (.init ps) acts = some s) (hs : AtRest c s) :
    s.map (·.proc) = ps ∧ ∀ e ∈ s,
      (e.stage = .refused ↔ ¬ Content c ps e.proc) ∧
      (e.stage = .failed ↔ (∀ q ∈ ps, q.host = e.proc.host → Content c ps q) ∧ BreaksDown c ps e.proc) ∧
      (e.stage = .ready ↔ AllFit c ps) ∧
      (InCall e.stage ↔ Content c ps e.proc ∧ ¬ ((∀ q ∈ ps, q.host = e.proc.host → Content c ps q) ∧ BreaksDown c ps e.proc) ∧
        ¬ AllFit c ps) := by
  have hi := start_run acts (start_init c ps) hr
  refine ⟨hi.procs, fun e he => ?_⟩
  have hm : e.proc ∈ ps := by rw [← hi.procs]; exact List.mem_map_of_mem he
  obtain ⟨h1, h2, h3, h4, h5⟩ := stuck_stage hi hs e he
  have e1 := ok_iff hc hm
  have e2 : hostOk c ps e.proc ↔ ∀ q ∈ ps, q.host = e.proc.host → Content c ps q :=
    ⟨fun h q hq hh => (ok_iff hc hq).1 (h q hq hh), fun h q hq hh => (ok_iff hc hq).2 (h q hq hh)⟩
  have e3 : (∀ q ∈ ps, good c ps q) ↔ AllFit c ps := by
    constructor
    · intro h q hq
      have ho := (h q hq).1 q hq rfl
      exact ⟨(ok_iff hc hq).1 ho, fun hb => (h q hq).2 ((bad_iff hc hq ho).2 hb)⟩
    · intro h q hq
      exact ⟨fun r hr _ => (ok_iff hc hr).2 (h r hr).1, fun hb => (h q hq).2 ((bad_iff hc hq ((ok_iff hc hq).2 (h q hq).1)).1 hb)⟩
  rw [← e1, ← e2, ← e3]
  have hself : hostOk c ps e.proc → ok c ps e.proc := fun h => h e.proc hm rfl
  by_cases o : ok c ps e.proc
  · rw [← bad_iff hc hm o]
    by_cases ho : hostOk c ps e.proc
    · by_cases hb : bad c ps e.proc
      · have hst := h3 ho hb
        have hn : ¬ ∀ q ∈ ps, good c ps q := fun h => (h e.proc hm).2 hb
        simp [hst, InCall, o, ho, hb, hn]
      · by_cases hall : ∀ q ∈ ps, good c ps q
        · have hst := h5 hall
          rw [eq_true hall]
          simp [hst, InCall, o, hb]
        · rcases h4 ⟨ho, hb⟩ hall with hst | hst <;> simp [hst, InCall, o, hb, hall]
    · have hst := h2 o ho
      have hn : ¬ ∀ q ∈ ps, good c ps q := fun h => ho (h e.proc hm).1
      simp [hst, InCall, o, ho, hn]
  · have hst := h1 o
    have ho : ¬ hostOk c ps e.proc := fun h => o (hself h)
    have hn : ¬ ∀ q ∈ ps, good c ps q := fun h => ho (h e.proc hm).1
    simp [hst, InCall, o, ho, hn]

/-- **C133**, exactly when nobody waits: all processes can start the store, or all of them refuse, provided that no monitor is alone on
its host and every host has two processes. -/
theorem C133_together_partial (c : Config) (ps : List Proc) (acts : List Act) (s : State) (hc : SaneStart c ps)
    (ha : Accompanied ps) (h2 : ∀ p ∈ ps, ¬ SingleProcess ps p.host)
    (hr : StoreStart.run c (.init ps) acts = some s) (hs : AtRest c s) :
    (∀ e ∈ s, ¬ InCall e.stage) ↔ AllFit c ps ∨ ∀ p ∈ ps, ¬ Content c ps p := by
  obtain ⟨hp, h⟩ := C133_exactly_partial c ps acts s hc hr hs
  have hback : ∀ p ∈ ps, ∃ e ∈ s, e.proc = p := fun p hq => by rw [← hp] at hq; exact List.mem_map.1 hq
  have hmem : ∀ e ∈ s, e.proc ∈ ps := fun e he => by rw [← hp]; exact List.mem_map_of_mem he
  constructor
  · intro hn
    by_cases hall : AllFit c ps
    · exact .inl hall
    · refine .inr fun p hpp hcon => ?_
      obtain ⟨e, he, rfl⟩ := hback p hpp
      have key : ∀ e ∈ s, Content c ps e.proc →
          (∀ q ∈ ps, q.host = e.proc.host → Content c ps q) ∧ BreaksDown c ps e.proc := fun e he hcon =>
        Classical.byContradiction fun hx => hn e he ((h e he).2.2.2.2 ⟨hcon, hx, hall⟩)
      obtain ⟨hho, hb⟩ := key e he hcon
      rcases hb with hb | hb
      · exact h2 e.proc (hmem e he) hb
      · obtain ⟨q, hq, hqh, hqm⟩ := ha e.proc (hmem e he) hb.1
        obtain ⟨e', he', rfl⟩ := hback q hq
        rcases (key e' he' (hho _ hq hqh)).2 with hb' | hb'
        · exact h2 _ hq hb'
        · rw [hqm] at hb'; cases hb'.1
  · rintro (hall | hall) e he hw
    · exact ((h e he).2.2.2.1 hw).2.2 hall
    · exact hall e.proc (hmem e he) ((h e he).2.2.2.1 hw).1

/-- The code violates C133 on a single host and without any difference between the processes, too: if the service memory has no room for
a record (see `C108_exactly_partial`), every monitor breaks down and all other processes, the main process among them, wait for ever. -/
theorem C133_no_room_violated (c : Config) (ps : List Proc) (acts : List Act) (s : State) (hc : SaneStart c ps)
    (h2 : ∀ p ∈ ps, ¬ SingleProcess ps p.host) (avail : Int) (hsame : ∀ p ∈ ps, p.avail = avail)
    (hfit : c.objMem.getD 0 + c.svcMem.getD 0 ≤ avail * 95 / 100) (hno : ¬ RoomForRecord c avail) (hm : ∃ p ∈ ps, p.monitor = true)
    (hr : StoreStart.run c (.init ps) acts = some s) (hs : AtRest c s) :
    ∀ e ∈ s, if e.proc.monitor = true then e.stage = .failed else InCall e.stage := by
  obtain ⟨hp, h⟩ := C133_exactly_partial c ps acts s hc hr hs
  have hmem : ∀ e ∈ s, e.proc ∈ ps := fun e he => by rw [← hp]; exact List.mem_map_of_mem he
  have hcon : ∀ q ∈ ps, Content c ps q := fun q hq => ⟨by rw [hsame q hq]; exact hfit, fun _ => h2⟩
  intro e he
  split
  · rename_i hmo
    exact (h e he).2.1.2 ⟨fun q hq _ => hcon q hq, .inr ⟨hmo, by rw [hsame _ (hmem e he)]; exact hno⟩⟩
  · rename_i hmo
    refine (h e he).2.2.2.2 ⟨hcon _ (hmem e he), ?_, fun hall => ?_⟩
    · rintro ⟨-, hb | hb⟩
      · exact h2 _ (hmem e he) hb
      · exact hmo hb.1
    · obtain ⟨p, hpp, hpm⟩ := hm
      exact (hall p hpp).2 (.inr ⟨hpm, by rw [hsame p hpp]; exact hno⟩)

-- an object store smaller than the threshold on one host
example : (StoreStart.run ⟨some 50000, none, 100000⟩ (.init [⟨true, 0, false, 1000000000⟩, ⟨false, 0, true, 1000000000⟩])
      [.sizes 0, .sizes 1, .allocate 0, .fill 1]).map (fun s => s.map (·.stage)) = some [.barrier, .failed] := by decide +kernel

-- both hosts have enough memory: everybody becomes ready
example : (StoreStart.run ⟨some 300000000, none, 100000⟩ (.init exSmallHost)
      [.sizes 2, .sizes 0, .sizes 1, .allocate 0, .sizes 3, .fill 1, .allocate 1, .fill 2, .group, .pass]).map
      (fun s => s.map (·.stage)) = some [.ready, .ready, .ready, .ready] := by decide +kernel

-- a host with a single process: the root refuses, the others wait or break down
example : (StoreStart.run ⟨none, none, 100000⟩ (.init [⟨true, 0, false, 1000000000⟩, ⟨false, 0, true, 1000000000⟩, ⟨false, 1, false, 1000000000⟩])
      [.sizes 0, .sizes 1, .sizes 2, .allocate 1]).map (fun s => s.map (·.stage)) = some [.refused, .allocating, .failed] := by
  decide +kernel

/-- Steps a process can still take. -/
private def ahead : At → Nat
  | .begins => 5
  | .allocating => 4
  | .filling => 3
  | .grouping => 2
  | .barrier => 1
  | _ => 0

private theorem sum_map_lt {s : State} {f : Entry → Entry} (hle : ∀ e ∈ s, ahead (f e).stage ≤ ahead e.stage)
    (hlt : ∃ e ∈ s, ahead (f e).stage < ahead e.stage) :
    ((s.map f).map fun e => ahead e.stage).sum < (s.map fun e => ahead e.stage).sum := by
  induction s with
  | nil => obtain ⟨e, he, _⟩ := hlt; cases he
  | cons x s ih =>
    have hle' : ((s.map f).map fun e => ahead e.stage).sum ≤ (s.map fun e => ahead e.stage).sum := by
      clear ih hlt
      induction s with
      | nil => simp
      | cons y s ih2 =>
        have h1 := hle y (by simp)
        have h2 := ih2 fun e he => hle e (by rcases List.mem_cons.1 he with rfl | he <;> simp [*])
        simp only [List.map_cons, List.sum_cons]; omega
    have hx := hle x (by simp)
    simp only [List.map_cons, List.sum_cons]
    obtain ⟨e, he, hlt⟩ := hlt
    rcases List.mem_cons.1 he with rfl | he
    · omega
    · have := ih (fun e he => hle e (by simp [he])) ⟨e, he, hlt⟩
      omega

private theorem sum_set_lt {s : State} {i : Nat} {x y : Entry} (h : s[i]? = some y) (hlt : ahead x.stage < ahead y.stage) :
    ((s.set i x).map fun e => ahead e.stage).sum < (s.map fun e => ahead e.stage).sum := by
  induction s generalizing i with
  | nil => simp at h
  | cons z s ih =>
    cases i with
    | zero => simp only [List.getElem?_cons_zero, Option.some.injEq] at h; subst h; simp only [List.set_cons_zero, List.map_cons, List.sum_cons]; omega
    | succ i =>
      have := ih (i := i) (by simpa using h)
      simp only [List.set_cons_succ, List.map_cons, List.sum_cons]; omega

private theorem step_ahead {c : Config} {s s' : State} {a : Act} (h : step c s a = some s') :
    (s'.map fun e => ahead e.stage).sum < (s.map fun e => ahead e.stage).sum := by
  cases a with
  | sizes i =>
    simp only [step] at h
    split at h
    · rename_i p hg; cases h
      refine sum_set_lt hg ?_
      dsimp only; split <;> decide
    · cases h
  | fill i =>
    simp only [step] at h
    split at h
    · rename_i p hg; cases h
      refine sum_set_lt hg ?_
      dsimp only; split <;> decide
    · cases h
  | allocate h0 =>
    simp only [step] at h
    split at h
    · rename_i hg
      simp only [Bool.and_eq_true, List.any_eq_true, beq_iff_eq, List.all_eq_true, Bool.or_eq_true, bne_iff_ne, ne_eq] at hg
      obtain ⟨⟨w, hw, hwh⟩, hall⟩ := hg
      cases h
      have key : ∀ e ∈ s, e.proc.host = h0 → ahead (if e.proc.host = h0 then
          ({ e with stage := if s.single h0 then .failed else if e.proc.monitor then .filling else .barrier } : Entry) else e).stage <
          ahead e.stage := fun e he hh => by
        rw [if_pos hh, (hall e he).resolve_left (fun h => h hh)]
        dsimp only
        split
        · decide
        · split <;> decide
      refine sum_map_lt (fun e he => ?_) ⟨w, hw, key w hw hwh⟩
      by_cases hh : e.proc.host = h0
      · exact Nat.le_of_lt (key e he hh)
      · rw [if_neg hh]
    · cases h
  | group =>
    simp only [step] at h
    split at h
    · rename_i hg
      simp only [Bool.and_eq_true, List.any_eq_true, beq_iff_eq, List.all_eq_true, Bool.or_eq_true, Bool.not_eq_true'] at hg
      obtain ⟨⟨w, hw, hwm⟩, hall⟩ := hg
      cases h
      have key : ∀ e ∈ s, e.proc.monitor = true → ahead (if e.proc.monitor = true then
          ({ e with stage := .barrier } : Entry) else e).stage < ahead e.stage := fun e he hm => by
        rw [if_pos hm, (hall e he).resolve_left (by rw [hm]; decide)]; exact (by decide : ahead .barrier < ahead .grouping)
      refine sum_map_lt (fun e he => ?_) ⟨w, hw, key w hw hwm⟩
      by_cases hm : e.proc.monitor = true
      · exact Nat.le_of_lt (key e he hm)
      · rw [if_neg hm]
    · cases h
  | pass =>
    simp only [step] at h
    split at h
    · rename_i hg
      simp only [Bool.and_eq_true, List.all_eq_true, beq_iff_eq, Bool.not_eq_true'] at hg
      cases h
      cases s with
      | nil => simp at hg
      | cons x s =>
        refine sum_map_lt (fun e he => ?_) ⟨x, by simp, ?_⟩
        · rw [hg.2 e he]; exact (by decide : ahead .ready ≤ ahead .barrier)
        · rw [hg.2 x (by simp)]; exact (by decide : ahead .ready < ahead .barrier)
    · cases h

/-- Whatever the order of the steps, after at most five for each process nothing more happens. -/
theorem C133_ends (c : Config) (ps : List Proc) (acts : List Act) (s : State)
    (hr : StoreStart.run c (.init ps) acts = some s) : acts.length ≤ 5 * ps.length := by
  have key : ∀ (acts : List Act) (s s' : State), StoreStart.run c s acts = some s' →
      acts.length ≤ (s.map fun e => ahead e.stage).sum := by
    intro acts
    induction acts with
    | nil => intro s s' _; simp
    | cons a as ih =>
      intro s s' h
      obtain ⟨t, ht, h⟩ := Option.bind_eq_some_iff.1 h
      have h1 := ih t s' h
      have h2 := step_ahead ht
      simp only [List.length_cons]; omega
  have := key acts _ _ hr
  have hsum : ((State.init ps).map fun e => ahead e.stage).sum = 5 * ps.length := by
    clear this hr key
    induction ps with
    | nil => rfl
    | cons p ps ih =>
      have e : (State.init (p :: ps)) = ⟨p, .begins⟩ :: State.init ps := rfl
      rw [e, List.map_cons, List.sum_cons, ih, List.length_cons]
      simp only [ahead]; omega
  omega

/-- Without configured sizes no process refuses: if every host has two processes and every monitor reads enough memory for one record,
all processes become ready, whatever the others read. -/
theorem C133_default_partial (c : Config) (ps : List Proc) (acts : List Act) (s : State) (hc : SaneStart c ps)
    (hd : c.objMem = none ∧ c.svcMem = none) (h2 : ∀ p ∈ ps, ¬ SingleProcess ps p.host)
    (hm : ∀ p ∈ ps, p.monitor = true → RoomForRecord c p.avail)
    (hr : StoreStart.run c (.init ps) acts = some s) (hs : AtRest c s) : ∀ e ∈ s, e.stage = .ready := by
  intro e he
  refine ((C133_exactly_partial c ps acts s hc hr hs).2 e he).2.2.1.2 fun q hq => ⟨⟨?_, fun _ => h2⟩, ?_⟩
  · have := (hc.2 q hq).1
    simp only [hd.1, hd.2, Option.getD_none]; omega
  · rintro (h | h)
    · exact h2 q hq h
    · exact h.2 (hm q hq h.1)

/-- If all processes read the same amount of memory, either all refuse or none does. -/
theorem C133_same_partial (c : Config) (ps : List Proc) (acts : List Act) (s : State) (hc : SaneStart c ps)
    (h2 : ∀ p ∈ ps, ¬ SingleProcess ps p.host) (avail : Int) (hsame : ∀ p ∈ ps, p.avail = avail)
    (hr : StoreStart.run c (.init ps) acts = some s) (hs : AtRest c s) :
    (∀ e ∈ s, e.stage = .refused) ∨ (∀ e ∈ s, e.stage ≠ .refused) := by
  obtain ⟨hp, h⟩ := C133_exactly_partial c ps acts s hc hr hs
  have hmem : ∀ e ∈ s, e.proc ∈ ps := fun e he => by rw [← hp]; exact List.mem_map_of_mem he
  by_cases hf : c.objMem.getD 0 + c.svcMem.getD 0 ≤ avail * 95 / 100
  · exact .inr fun e he hst => (h e he).1.1 hst ⟨by rw [hsame _ (hmem e he)]; exact hf, fun _ => h2⟩
  · exact .inl fun e he => (h e he).1.2 fun hcon => hf (by rw [← hsame _ (hmem e he)]; exact hcon.1)

end Verif.Props
