import Verif.Model.InterruptPut
import Mathlib.Data.List.Nodup
import Mathlib.Tactic.Tauto

/-! Lemmas about interrupted calls of `put` and `get` with shared memory. -/
namespace Verif.InterruptPut

theorem run_append (as bs : List Act) : ∀ s : State, s.run (as ++ bs) = (s.run as).bind fun t => t.run bs := by
  induction as with
  | nil => intro s; rfl
  | cons a as ih =>
    intro s
    simp only [List.cons_append, State.run]
    cases s.step a with
    | none => rfl
    | some t => simp only [Option.bind_some]; exact ih t

/-- How far the call in progress has come with this object. -/
def State.phaseOf (s : State) (i : Nat) : Option Phase :=
  match s.call with
  | some c => if c.id = i then some c.phase else none
  | none => none

/-- What is known about an object: `b`, a call was ended after its reservation; `l`, a call was ended after it counted a reference. -/
structure ObjOk (b l : Prop) (ph : Option Phase) (o : Obj) : Prop where
  pub : o.published = true → o.reserved = true
  unfinished : o.reserved = true ∧ o.published = false ↔ ph = some .reserved ∨ b
  unpub : o.published = false → o.refs = 0 ∧ o.fins = 0 ∧ o.known = false
  low : o.fins + (if ph = some .published ∨ ph = some .counted then 1 else 0) ≤ o.refs
  high : o.fins + (if ph = some .published ∨ ph = some .counted then 1 else 0) < o.refs ↔ l
  past : ph = some .published ∨ ph = some .final ∨ ph = some .known ∨ ph = some .counted → o.published = true
  wait : ph = some .waiting → b
  first : ph = some .reserved → ¬ b

/-- What is known about a state: the predicates say which objects had a call ended after the reservation, or after a reference was counted,
and which were in a list of a clean-up. -/
structure Inv (B L D : Nat → Prop) (s : State) : Prop where
  fresh : ∀ i, s.next ≤ i → s.objs i = .absent ∧ ¬ B i ∧ ¬ L i ∧ ¬ D i
  held_lt : ∀ i ∈ s.held, i < s.next
  held_nodup : s.held.Nodup
  dropped_lt : ∀ i ∈ s.dropped, i < s.next ∧ i ∉ s.held
  dropped_nodup : s.dropped.Nodup
  pending_nodup : s.alive = true → s.pending.Nodup
  listed : ∀ i, D i → i ∉ s.held ∧ i ∉ s.dropped
  pend : s.alive = true → ∀ i, i ∈ s.pending ↔ L i ∧ D i
  put : ∀ c, s.call = some c → c.put = true → c.id < s.next ∧ c.id ∉ s.held ∧ c.id ∉ s.dropped ∧ ¬ D c.id ∧ ¬ B c.id ∧ ¬ L c.id ∧
    (c.phase = .start ∧ s.objs c.id = .absent ∨ c.phase = .reserved ∨ c.phase = .published ∨ c.phase = .final)
  get : ∀ c, s.call = some c → c.put = false → c.id ∈ s.held
  obj : ∀ i, ObjOk (B i) (L i) (s.phaseOf i) (s.objs i)
  gone : ∀ i, i ∉ s.held → s.phaseOf i = none → (s.objs i).fins = 0
  place : s.alive = true → ∀ i, (s.objs i).reserved = true → i ∈ s.held ∨ (∃ c, s.call = some c ∧ c.id = i) ∨ i ∈ s.dropped ∨ i ∈ s.pending
  dead : s.alive = false ↔ ∃ i, B i ∧ D i

theorem absent_ok {b l : Prop} (hb : ¬ b) (hl : ¬ l) : ObjOk b l none .absent :=
  ⟨by simp [Obj.absent], by simp [Obj.absent, hb], by simp [Obj.absent], by simp [Obj.absent], by simp [Obj.absent, hl], by simp, by simp, by simp⟩

theorem absent_start {b l : Prop} (hb : ¬ b) (hl : ¬ l) : ObjOk b l (some .start) .absent :=
  ⟨by simp [Obj.absent], by simp [Obj.absent, hb], by simp [Obj.absent], by simp [Obj.absent], by simp [Obj.absent, hl], by simp, by simp, by simp⟩

theorem inv_init : Inv (fun _ => False) (fun _ => False) (fun _ => False) State.init := by
  refine ⟨fun i _ => ⟨rfl, id, id, id⟩, ?_, ?_, ?_, ?_, ?_, ?_, ?_, ?_, ?_, fun i => absent_ok id id, ?_, ?_, ?_⟩ <;>
    simp [State.init, Obj.absent]

/-- A call that begins, or ends, or only waits does not change what is known about an object, unless it counts. -/
theorem ObjOk.quiet {b l : Prop} {ph ph' : Option Phase} {o : Obj} (h : ObjOk b l ph o)
    (h1 : ph = none ∨ ph = some .start ∨ ph = some .waiting ∨ ph = some .final ∨ ph = some .known) (h2 : ph' = none ∨ ph' = some .start) :
    ObjOk b l ph' o := by
  have e1 : ¬ (ph = some .published ∨ ph = some .counted) := by rcases h1 with h | h | h | h | h <;> simp [h]
  have e2 : ¬ (ph' = some .published ∨ ph' = some .counted) := by rcases h2 with h | h <;> simp [h]
  have e3 : ph ≠ some .reserved := by rcases h1 with h | h | h | h | h <;> simp [h]
  have e4 : ph' ≠ some .reserved := by rcases h2 with h | h <;> simp [h]
  refine ⟨h.pub, ?_, h.unpub, ?_, ?_, ?_, ?_, ?_⟩
  · rw [h.unfinished]; simp [e3, e4]
  · have := h.low; rw [if_neg e1] at this; rw [if_neg e2]; exact this
  · have := h.high; rw [if_neg e1] at this; rw [if_neg e2]; exact this
  · rcases h2 with h | h <;> simp [h]
  · rcases h2 with h | h <;> simp [h]
  · rcases h2 with h | h <;> simp [h]

/-- A call that is ended by a signal. -/
theorem ObjOk.signal {b l : Prop} {p : Phase} {o : Obj} (h : ObjOk b l (some p) o) :
    ObjOk (b ∨ p = .reserved) (l ∨ p = .published ∨ p = .counted) none o := by
  refine ⟨h.pub, ?_, h.unpub, ?_, ?_, by simp, by simp, by simp⟩
  · rw [h.unfinished]; simp; tauto
  · have := h.low; split at this <;> simp <;> omega
  · have h1 := h.low
    have h2 := h.high
    simp only [Option.some.injEq, reduceCtorEq, or_self, if_false, Nat.add_zero] at h1 h2 ⊢
    by_cases hp : p = .published ∨ p = .counted
    · rw [if_pos hp] at h1 h2
      simp only [hp, or_true, iff_true]
      omega
    · rw [if_neg hp] at h1 h2
      simp only [hp, or_false]
      exact h2

/-- The finalizers of an object run. -/
theorem ObjOk.lose {b l : Prop} {o : Obj} (h : ObjOk b l none o) : ObjOk b l none { o with refs := o.refs - o.fins, fins := 0 } := by
  have h1 := h.low
  have h2 := h.high
  simp only [reduceCtorEq, or_self, if_false, Nat.add_zero] at h1 h2
  refine ⟨h.pub, h.unfinished, ?_, ?_, ?_, by simp, by simp, by simp⟩
  · intro hp
    have := h.unpub hp
    exact ⟨by simp only; omega, rfl, this.2.2⟩
  · simp
  · simp only [reduceCtorEq, or_self, if_false, Nat.add_zero]
    rw [← h2]; omega

/-- What a clean-up does with different objects. -/
theorem clear_spec : ∀ (l : List Nat) (objs : Nat → Obj) (p : List Nat), l.Nodup →
    ((clear objs p l).2.2 = false ↔ ∃ i ∈ l, (objs i).reserved = true ∧ (objs i).published = false) ∧
    (∀ i, (clear objs p l).1 i = objs i ∨ i ∈ l ∧ (clear objs p l).1 i = .absent ∧ (objs i).published = true ∧ (objs i).refs = 0) ∧
    ((clear objs p l).2.2 = true → (clear objs p l).2.1 = p ++ l.filter (fun i => (objs i).published && decide (0 < (objs i).refs)) ∧
      ∀ i ∈ l, (objs i).published = true → (objs i).reserved = true → (objs i).refs = 0 → (clear objs p l).1 i = .absent)
  | [], objs, p, _ => by simp [clear]
  | x :: l, objs, p, hn => by
    have hx : x ∉ l := (List.nodup_cons.1 hn).1
    have hn' : l.Nodup := (List.nodup_cons.1 hn).2
    simp only [clear]
    by_cases h1 : (objs x).published = true ∧ 0 < (objs x).refs
    · rw [if_pos h1]
      obtain ⟨a1, a2, a3⟩ := clear_spec l objs (p ++ [x]) hn'
      refine ⟨?_, ?_, ?_⟩
      · rw [a1]; simp [h1.1]
      · intro i
        rcases a2 i with h | ⟨h, h'⟩
        · exact Or.inl h
        · exact Or.inr ⟨by simp [h], h'⟩
      · intro h
        obtain ⟨b1, b2⟩ := a3 h
        refine ⟨by rw [b1]; simp [List.filter_cons, h1], ?_⟩
        intro i hi hp hr h0
        rcases List.mem_cons.1 hi with rfl | hi
        · omega
        · exact b2 i hi hp hr h0
    · rw [if_neg h1]
      by_cases h2 : (objs x).reserved = true
      · rw [if_pos h2]
        by_cases h3 : (objs x).published = true
        · rw [if_pos h3]
          have h4 : (objs x).refs = 0 := by
            apply Classical.byContradiction
            intro hc
            exact h1 ⟨h3, by omega⟩
          obtain ⟨a1, a2, a3⟩ := clear_spec l (upd objs x .absent) p hn'
          have hsame : ∀ i ∈ l, upd objs x .absent i = objs i := by
            intro i hi
            have : i ≠ x := fun h => hx (h ▸ hi)
            simp [upd, this]
          refine ⟨?_, ?_, ?_⟩
          · rw [a1]
            constructor
            · rintro ⟨i, hi, h⟩
              rw [hsame i hi] at h
              exact ⟨i, by simp [hi], h⟩
            · rintro ⟨i, hi, h⟩
              rcases List.mem_cons.1 hi with rfl | hi
              · simp [h3] at h
              · exact ⟨i, hi, by rw [hsame i hi]; exact h⟩
          · intro i
            by_cases hix : i = x
            · subst hix
              right
              refine ⟨by simp, ?_, h3, h4⟩
              rcases a2 i with h | ⟨h, -⟩
              · rw [h]; simp [upd]
              · exact absurd h hx
            · have e : upd objs x .absent i = objs i := by simp [upd, hix]
              rcases a2 i with h | ⟨h, h', h5⟩
              · left; rw [h, e]
              · right; rw [e] at h5; exact ⟨by simp [h], h', h5⟩
          · intro h
            obtain ⟨b1, b2⟩ := a3 h
            refine ⟨?_, ?_⟩
            · rw [b1, List.filter_cons, if_neg (by simp [h4])]
              congr 1
              apply List.filter_congr
              intro i hi
              rw [hsame i hi]
            · intro i hi hp hr h0
              rcases List.mem_cons.1 hi with rfl | hi
              · rcases a2 i with h | ⟨h, -⟩
                · rw [h]; simp [upd]
                · exact absurd h hx
              · exact b2 i hi (by rw [hsame i hi]; exact hp) (by rw [hsame i hi]; exact hr) (by rw [hsame i hi]; exact h0)
        · rw [if_neg h3]
          refine ⟨?_, fun i => Or.inl rfl, by simp⟩
          simp only [true_iff]
          exact ⟨x, by simp, h2, by simpa using h3⟩
      · rw [if_neg h2]
        obtain ⟨a1, a2, a3⟩ := clear_spec l objs p hn'
        refine ⟨?_, ?_, ?_⟩
        · rw [a1]; simp [h2]
        · intro i
          rcases a2 i with h | ⟨h, h'⟩
          · exact Or.inl h
          · exact Or.inr ⟨by simp [h], h'⟩
        · intro h
          obtain ⟨b1, b2⟩ := a3 h
          refine ⟨?_, ?_⟩
          · rw [b1, List.filter_cons, if_neg (by simpa using h1)]
          · intro i hi hp hr h0
            rcases List.mem_cons.1 hi with rfl | hi
            · exact absurd hr h2
            · exact b2 i hi hp hr h0

theorem upd_same (f : Nat → Obj) (i : Nat) : upd f i (f i) = f := by
  funext j
  simp only [upd]
  split
  · rename_i h; rw [h]
  · rfl

theorem upd_self (f : Nat → Obj) (i : Nat) (o : Obj) : upd f i o i = o := by simp [upd]

theorem upd_other (f : Nat → Obj) {i j : Nat} (o : Obj) (h : j ≠ i) : upd f i o j = f j := by simp [upd, h]

theorem Inv.id_lt {B L D : Nat → Prop} {s : State} (h : Inv B L D s) {c : Call} (hc : s.call = some c) : c.id < s.next := by
  cases hp : c.put with
  | true => exact (h.put c hc hp).1
  | false => exact h.held_lt _ (h.get c hc hp)

theorem Inv.not_listed {B L D : Nat → Prop} {s : State} (h : Inv B L D s) {c : Call} (hc : s.call = some c) : ¬ D c.id ∧ c.id ∉ s.dropped := by
  cases hp : c.put with
  | true => exact ⟨(h.put c hc hp).2.2.2.1, (h.put c hc hp).2.2.1⟩
  | false => exact ⟨fun hd => (h.listed _ hd).1 (h.get c hc hp), fun hd => (h.dropped_lt _ hd).2 (h.get c hc hp)⟩

theorem phaseOf_self {s : State} {c : Call} (hc : s.call = some c) : s.phaseOf c.id = some c.phase := by simp [State.phaseOf, hc]

theorem phaseOf_other {s : State} {c : Call} (hc : s.call = some c) {i : Nat} (hi : i ≠ c.id) : s.phaseOf i = none := by
  simp [State.phaseOf, hc, Ne.symm hi]

/-- A step of a call that goes on. -/
theorem inv_move {B L D : Nat → Prop} {s : State} (h : Inv B L D s) {c : Call} (hc : s.call = some c) (p : Phase) (o : Obj)
    (ho : ObjOk (B c.id) (L c.id) (some p) o) (hp : c.put = true → p = .reserved ∨ p = .published ∨ p = .final) :
    Inv B L D { s with call := some { c with phase := p }, objs := upd s.objs c.id o } := by
  have hlt := h.id_lt hc
  refine ⟨?_, h.held_lt, h.held_nodup, h.dropped_lt, h.dropped_nodup, h.pending_nodup, h.listed, h.pend, ?_, ?_, ?_, ?_, ?_, h.dead⟩
  · intro i hi
    have : i ≠ c.id := by simp only at hi; omega
    simp only [upd_other _ _ this]
    exact h.fresh i hi
  · intro c' hc' hput
    simp only [Option.some.injEq] at hc'
    subst hc'
    obtain ⟨a1, a2, a3, a4, a5, a6, -⟩ := h.put c hc hput
    exact ⟨a1, a2, a3, a4, a5, a6, Or.inr (hp hput)⟩
  · intro c' hc' hput
    simp only [Option.some.injEq] at hc'
    subst hc'
    exact h.get c hc hput
  · intro i
    by_cases hi : i = c.id
    · subst hi
      simp only [upd_self, State.phaseOf, if_true]
      exact ho
    · have := h.obj i
      rw [phaseOf_other hc hi] at this
      simp only [upd_other _ _ hi, State.phaseOf, if_neg (Ne.symm hi)]
      exact this
  · intro i hi hph
    by_cases he : i = c.id
    · subst he; simp [State.phaseOf] at hph
    · simp only [upd_other _ _ he]
      exact h.gone i hi (phaseOf_other hc he)
  · intro ha i hr
    by_cases he : i = c.id
    · exact Or.inr (Or.inl ⟨_, rfl, he.symm⟩)
    · simp only [upd_other _ _ he] at hr
      rcases h.place ha i hr with h' | ⟨c', h1, h2⟩ | h'
      · exact Or.inl h'
      · rw [hc] at h1
        simp only [Option.some.injEq] at h1
        subst h1
        exact absurd h2.symm he
      · exact Or.inr (Or.inr h')

/-- The end of a `get`. -/
theorem inv_done {B L D : Nat → Prop} {s : State} (h : Inv B L D s) {c : Call} (hc : s.call = some c) (hput : c.put = false) (o : Obj)
    (ho : ObjOk (B c.id) (L c.id) none o) : Inv B L D { s with call := none, objs := upd s.objs c.id o } := by
  have hlt := h.id_lt hc
  have hheld := h.get c hc hput
  refine ⟨?_, h.held_lt, h.held_nodup, h.dropped_lt, h.dropped_nodup, h.pending_nodup, h.listed, h.pend, by simp, by simp, ?_, ?_, ?_, h.dead⟩
  · intro i hi
    have : i ≠ c.id := by simp only at hi; omega
    simp only [upd_other _ _ this]
    exact h.fresh i hi
  · intro i
    by_cases hi : i = c.id
    · subst hi
      simp only [upd_self, State.phaseOf]
      exact ho
    · have := h.obj i
      rw [phaseOf_other hc hi] at this
      simp only [upd_other _ _ hi, State.phaseOf]
      exact this
  · intro i hi hph
    have he : i ≠ c.id := fun he => hi (he ▸ hheld)
    simp only [upd_other _ _ he]
    exact h.gone i hi (phaseOf_other hc he)
  · intro ha i hr
    by_cases he : i = c.id
    · exact Or.inl (he ▸ hheld)
    · simp only [upd_other _ _ he] at hr
      rcases h.place ha i hr with h' | ⟨c', h1, h2⟩ | h'
      · exact Or.inl h'
      · rw [hc] at h1
        simp only [Option.some.injEq] at h1
        subst h1
        exact absurd h2.symm he
      · exact Or.inr (Or.inr h')

/-- The end of a `put`. -/
theorem inv_returned {B L D : Nat → Prop} {s : State} (h : Inv B L D s) {c : Call} (hc : s.call = some c) (hput : c.put = true) (o : Obj)
    (ho : ObjOk (B c.id) (L c.id) none o) : Inv B L D { s with call := none, objs := upd s.objs c.id o, held := s.held ++ [c.id] } := by
  have hlt := h.id_lt hc
  obtain ⟨a1, a2, a3, a4, a5, a6, -⟩ := h.put c hc hput
  refine ⟨?_, ?_, ?_, ?_, h.dropped_nodup, h.pending_nodup, ?_, h.pend, by simp, by simp, ?_, ?_, ?_, h.dead⟩
  · intro i hi
    have : i ≠ c.id := by simp only at hi; omega
    simp only [upd_other _ _ this]
    exact h.fresh i hi
  · intro i hi
    simp only [List.mem_append, List.mem_singleton] at hi
    rcases hi with hi | rfl
    · exact h.held_lt i hi
    · exact a1
  · rw [List.nodup_append]
    refine ⟨h.held_nodup, by simp, ?_⟩
    intro a ha b hb
    simp only [List.mem_singleton] at hb
    subst hb
    exact fun e => a2 (e ▸ ha)
  · intro i hi
    refine ⟨(h.dropped_lt i hi).1, ?_⟩
    simp only [List.mem_append, List.mem_singleton, not_or]
    exact ⟨(h.dropped_lt i hi).2, fun e => a3 (e ▸ hi)⟩
  · intro i hi
    refine ⟨?_, (h.listed i hi).2⟩
    simp only [List.mem_append, List.mem_singleton, not_or]
    exact ⟨(h.listed i hi).1, fun e => a4 (e ▸ hi)⟩
  · intro i
    by_cases hi : i = c.id
    · subst hi
      simp only [upd_self, State.phaseOf]
      exact ho
    · have := h.obj i
      rw [phaseOf_other hc hi] at this
      simp only [upd_other _ _ hi, State.phaseOf]
      exact this
  · intro i hi hph
    simp only [List.mem_append, List.mem_singleton, not_or] at hi
    simp only [upd_other _ _ hi.2]
    exact h.gone i hi.1 (phaseOf_other hc hi.2)
  · intro ha i hr
    by_cases he : i = c.id
    · left; simp [he]
    · simp only [upd_other _ _ he] at hr
      rcases h.place ha i hr with h' | ⟨c', h1, h2⟩ | h'
      · left; simp [h']
      · rw [hc] at h1
        simp only [Option.some.injEq] at h1
        subst h1
        exact absurd h2.symm he
      · exact Or.inr (Or.inr h')

theorem inv_advance {B L D : Nat → Prop} {s s' : State} (h : Inv B L D s) {c : Call} (hc : s.call = some c) (hs : s.advance c = some s') :
    Inv B L D s' := by
  have ho := h.obj c.id
  rw [phaseOf_self hc] at ho
  unfold State.advance at hs
  have hknown : ∀ o : Obj, ObjOk (B c.id) (L c.id) (some .start) o ∨ ObjOk (B c.id) (L c.id) (some .waiting) o ∨
      ObjOk (B c.id) (L c.id) (some .final) o → o.published = true → ObjOk (B c.id) (L c.id) (some .known) { o with known := true } := by
    intro o ho hp
    have hq : ObjOk (B c.id) (L c.id) none o := by
      rcases ho with ho | ho | ho
      · exact ho.quiet (by simp) (by simp)
      · exact ho.quiet (by simp) (by simp)
      · exact ho.quiet (by simp) (by simp)
    refine ⟨hq.pub, ?_, by simp [hp], ?_, ?_, by simp [hp], by simp, by simp⟩
    · have := hq.unfinished; simpa using this
    · have := hq.low; simpa using this
    · have := hq.high; simpa using this
  cases hph : c.phase with
  | start =>
    rw [hph] at ho
    simp only [hph] at hs
    have hget : (s.objs c.id).known = true ∨ (s.objs c.id).published = true ∨ (s.objs c.id).reserved = true → c.put = false := by
      intro hx
      cases hput : c.put with
      | false => rfl
      | true =>
        obtain ⟨-, -, -, -, -, -, a⟩ := h.put c hc hput
        rw [hph] at a
        simp only [true_and, reduceCtorEq, or_self, or_false] at a
        rw [a] at hx
        simp [Obj.absent] at hx
    by_cases h1 : (s.objs c.id).known = true
    · rw [if_pos h1] at hs
      simp only [Option.some.injEq] at hs
      subst hs
      have := inv_done h hc (hget (Or.inl h1)) (s.objs c.id) (ho.quiet (by simp) (by simp))
      rw [upd_same] at this
      exact this
    · rw [if_neg h1] at hs
      by_cases h2 : (s.objs c.id).published = true
      · rw [if_pos h2] at hs
        simp only [Option.some.injEq] at hs
        subst hs
        exact inv_move h hc _ _ (hknown _ (Or.inl ho) h2) (by rw [hget (Or.inr (Or.inl h2))]; simp)
      · rw [if_neg h2] at hs
        have h2' : (s.objs c.id).published = false := by simpa using h2
        by_cases h3 : s.alive = false
        · rw [if_pos h3] at hs; cases hs
        · rw [if_neg h3] at hs
          by_cases h4 : (s.objs c.id).reserved = true
          · rw [if_pos h4] at hs
            simp only [Option.some.injEq] at hs
            subst hs
            have hb : B c.id := by
              have := ho.unfinished.1 ⟨h4, h2'⟩
              simpa using this
            have := inv_move h hc .waiting (s.objs c.id)
              ⟨ho.pub, by have := ho.unfinished; simpa using this, ho.unpub, by have := ho.low; simpa using this,
                by have := ho.high; simpa using this, by simp, fun _ => hb, by simp⟩
              (by rw [hget (Or.inr (Or.inr h4))]; simp)
            rw [upd_same] at this
            exact this
          · rw [if_neg h4] at hs
            simp only [Option.some.injEq] at hs
            subst hs
            have hb : ¬ B c.id := fun hb => h4 (ho.unfinished.2 (Or.inr hb)).1
            refine inv_move h hc .reserved _ ⟨by simp, ?_, ?_, ?_, ?_, by simp, by simp, fun _ => hb⟩ (by simp)
            · simp [h2']
            · intro _; exact ho.unpub h2'
            · have := ho.low; simpa using this
            · have := ho.high; simpa using this
  | reserved =>
    rw [hph] at ho
    simp only [hph, Option.some.injEq] at hs
    subst hs
    have hr := (ho.unfinished.2 (Or.inl rfl))
    have hu := ho.unpub hr.2
    have hb := ho.first rfl
    have hl : ¬ L c.id := by
      rw [← ho.high]
      simp only [Option.some.injEq, reduceCtorEq, or_self, if_false]
      omega
    refine inv_move h hc .published _ ⟨fun _ => hr.1, ?_, by simp, ?_, ?_, by simp, by simp, by simp⟩ (by simp)
    · simp [hb]
    · simp [hu.2.1]
    · simp [hu.2.1, hl]
  | published =>
    rw [hph] at ho
    simp only [hph, Option.some.injEq] at hs
    subst hs
    have hp := ho.past (Or.inl rfl)
    refine inv_move h hc .final _ ⟨ho.pub, ?_, by simp [hp], ?_, ?_, by simp [hp], by simp, by simp⟩ (by simp)
    · have := ho.unfinished; simpa using this
    · have := ho.low; simpa using this
    · have := ho.high; simpa using this
  | final =>
    rw [hph] at ho
    simp only [hph] at hs
    have hp := ho.past (Or.inr (Or.inl rfl))
    by_cases hput : c.put = true
    · rw [if_pos hput] at hs
      simp only [Option.some.injEq] at hs
      subst hs
      exact inv_returned h hc hput _ ((hknown _ (Or.inr (Or.inr ho)) hp).quiet (by simp) (by simp))
    · rw [if_neg hput] at hs
      simp only [Option.some.injEq] at hs
      subst hs
      exact inv_move h hc _ _ (hknown _ (Or.inr (Or.inr ho)) hp) (fun hh => absurd hh hput)
  | waiting =>
    rw [hph] at ho
    simp only [hph] at hs
    by_cases hp : (s.objs c.id).published = true
    · have := ho.unfinished.2 (Or.inr (ho.wait rfl))
      rw [hp] at this
      simp at this
    · rw [if_neg hp] at hs; cases hs
  | known =>
    rw [hph] at ho
    simp only [hph, Option.some.injEq] at hs
    subst hs
    have hp := ho.past (Or.inr (Or.inr (Or.inl rfl)))
    have hput : c.put = false := by
      cases hput : c.put with
      | false => rfl
      | true =>
        obtain ⟨-, -, -, -, -, -, a⟩ := h.put c hc hput
        simp [hph] at a
    refine inv_move h hc .counted _ ⟨ho.pub, ?_, by simp [hp], ?_, ?_, by simp [hp], by simp, by simp⟩ (by simp [hput])
    · have := ho.unfinished; simpa using this
    · have := ho.low; simpa using this
    · have := ho.high; simpa using this
  | counted =>
    rw [hph] at ho
    simp only [hph, Option.some.injEq] at hs
    subst hs
    have hp := ho.past (Or.inr (Or.inr (Or.inr rfl)))
    have hput : c.put = false := by
      cases hput : c.put with
      | false => rfl
      | true =>
        obtain ⟨-, -, -, -, -, -, a⟩ := h.put c hc hput
        simp [hph] at a
    refine inv_done h hc hput _ ⟨ho.pub, ?_, by simp [hp], ?_, ?_, by simp, by simp, by simp⟩
    · have := ho.unfinished; simpa using this
    · have := ho.low; simpa using this
    · have := ho.high; simpa using this

/-- An identity is destroyed. -/
theorem inv_lose {B L D : Nat → Prop} {s : State} (h : Inv B L D s) (hc : s.call = none) (i : Nat) (hi : i ∈ s.held) : Inv B L D (s.lose i) := by
  have hph : ∀ j, s.phaseOf j = none := fun j => by simp [State.phaseOf, hc]
  have hph' : ∀ j, (s.lose i).phaseOf j = none := fun j => by simp [State.phaseOf, State.lose, hc]
  have hlt := h.held_lt i hi
  have hmem : ∀ j, j ∈ s.held.erase i ↔ j ≠ i ∧ j ∈ s.held := fun j => h.held_nodup.mem_erase_iff
  refine ⟨?_, ?_, h.held_nodup.erase _, ?_, ?_, h.pending_nodup, ?_, h.pend, by simp [State.lose, hc], by simp [State.lose, hc], ?_, ?_, ?_, h.dead⟩
  · intro j hj
    simp only [State.lose] at hj ⊢
    have : j ≠ i := by omega
    rw [upd_other _ _ this]
    exact h.fresh j hj
  · intro j hj
    exact h.held_lt j ((hmem j).1 hj).2
  · intro j hj
    simp only [State.lose, List.mem_append, List.mem_singleton] at hj ⊢
    rw [hmem]
    rcases hj with hj | rfl
    · exact ⟨(h.dropped_lt j hj).1, fun hx => (h.dropped_lt j hj).2 hx.2⟩
    · exact ⟨hlt, fun hx => hx.1 rfl⟩
  · simp only [State.lose]
    rw [List.nodup_append]
    refine ⟨h.dropped_nodup, by simp, ?_⟩
    intro a ha b hb
    simp only [List.mem_singleton] at hb
    subst hb
    exact fun e => (h.dropped_lt a ha).2 (e ▸ hi)
  · intro j hj
    simp only [State.lose, List.mem_append, List.mem_singleton, not_or]
    rw [hmem]
    exact ⟨fun hx => (h.listed j hj).1 hx.2, (h.listed j hj).2, fun e => (h.listed j hj).1 (e ▸ hi)⟩
  · intro j
    have := h.obj j
    rw [hph j] at this
    rw [hph' j]
    simp only [State.lose]
    by_cases he : j = i
    · subst he; rw [upd_self]; exact this.lose
    · rw [upd_other _ _ he]; exact this
  · intro j hj _
    simp only [State.lose] at hj ⊢
    rw [hmem] at hj
    by_cases he : j = i
    · subst he; rw [upd_self]
    · rw [upd_other _ _ he]
      exact h.gone j (fun hx => hj ⟨he, hx⟩) (hph j)
  · intro ha j hr
    simp only [State.lose] at ha hr ⊢
    by_cases he : j = i
    · subst he
      right; right; left
      simp
    · rw [upd_other _ _ he] at hr
      rcases h.place ha j hr with h' | ⟨c', h1, -⟩ | h' | h'
      · exact Or.inl ((hmem j).2 ⟨he, h'⟩)
      · rw [hc] at h1; cases h1
      · right; right; left; simp [h']
      · exact Or.inr (Or.inr (Or.inr h'))

/-- A call is ended by a signal; the program then holds its identity. -/
theorem inv_signal {B L D : Nat → Prop} {s : State} (h : Inv B L D s) {c : Call} (hc : s.call = some c) :
    Inv (fun i => B i ∨ s.phaseOf i = some .reserved) (fun i => L i ∨ (s.phaseOf i = some .published ∨ s.phaseOf i = some .counted)) D
      { s with call := none, held := if c.put then s.held ++ [c.id] else s.held } := by
  have hlt := h.id_lt hc
  have hnl := h.not_listed hc
  have hmem : ∀ j, j ∈ (if c.put then s.held ++ [c.id] else s.held) ↔ j ∈ s.held ∨ j = c.id := by
    intro j
    cases hp : c.put with
    | true => simp
    | false =>
      simp only [Bool.false_eq_true, if_false]
      exact ⟨Or.inl, fun hx => hx.elim id (fun e => e ▸ h.get c hc hp)⟩
  refine ⟨?_, ?_, ?_, ?_, h.dropped_nodup, h.pending_nodup, ?_, ?_, by simp, by simp, ?_, ?_, ?_, ?_⟩
  · intro i hi
    have : i ≠ c.id := by simp only at hi; omega
    obtain ⟨a1, a2, a3, a4⟩ := h.fresh i hi
    rw [phaseOf_other hc this]
    exact ⟨a1, by simpa using a2, by simpa using a3, a4⟩
  · intro i hi
    rcases (hmem i).1 hi with hi | rfl
    · exact h.held_lt i hi
    · exact hlt
  · simp only
    cases hp : c.put with
    | false => simpa using h.held_nodup
    | true =>
      simp only [if_true]
      rw [List.nodup_append]
      refine ⟨h.held_nodup, by simp, ?_⟩
      intro a ha b hb
      simp only [List.mem_singleton] at hb
      subst hb
      exact fun e => (h.put c hc hp).2.1 (e ▸ ha)
  · intro i hi
    refine ⟨(h.dropped_lt i hi).1, fun hx => ?_⟩
    rcases (hmem i).1 hx with hx | rfl
    · exact (h.dropped_lt i hi).2 hx
    · exact hnl.2 hi
  · intro i hi
    refine ⟨fun hx => ?_, (h.listed i hi).2⟩
    rcases (hmem i).1 hx with hx | rfl
    · exact (h.listed i hi).1 hx
    · exact hnl.1 hi
  · intro ha i
    rw [h.pend ha i]
    by_cases he : i = c.id
    · subst he; simp [hnl.1]
    · simp [phaseOf_other hc he]
  · intro i
    have hi := h.obj i
    simp only [State.phaseOf]
    by_cases he : i = c.id
    · subst he
      rw [phaseOf_self hc] at hi
      have := hi.signal
      simpa [hc] using this
    · rw [phaseOf_other hc he] at hi
      simpa [hc, Ne.symm he] using hi
  · intro i hi _
    have hne : i ≠ c.id := fun e => hi ((hmem i).2 (Or.inr e))
    exact h.gone i (fun hx => hi ((hmem i).2 (Or.inl hx))) (phaseOf_other hc hne)
  · intro ha i hr
    rcases h.place ha i hr with h' | ⟨c', h1, h2⟩ | h'
    · exact Or.inl ((hmem i).2 (Or.inl h'))
    · rw [hc] at h1
      simp only [Option.some.injEq] at h1
      subst h1
      exact Or.inl ((hmem i).2 (Or.inr h2.symm))
    · exact Or.inr (Or.inr h')
  · rw [h.dead]
    constructor
    · rintro ⟨i, h1, h2⟩; exact ⟨i, Or.inl h1, h2⟩
    · rintro ⟨i, h1 | h1, h2⟩
      · exact ⟨i, h1, h2⟩
      · by_cases he : i = c.id
        · subst he; exact absurd h2 hnl.1
        · rw [phaseOf_other hc he] at h1; cases h1

/-- A clean-up. -/
theorem inv_cleanup {B L D : Nat → Prop} {s : State} (h : Inv B L D s) (hc : s.call = none) (ha : s.alive = true) :
    Inv B L (fun i => D i ∨ i ∈ s.dropped) { s with
      objs := (clear s.objs [] (s.pending ++ s.dropped)).1
      pending := (clear s.objs [] (s.pending ++ s.dropped)).2.1
      alive := (clear s.objs [] (s.pending ++ s.dropped)).2.2
      dropped := [] } := by
  have hph : ∀ j, s.phaseOf j = none := fun j => by simp [State.phaseOf, hc]
  have hnd : (s.pending ++ s.dropped).Nodup := by
    rw [List.nodup_append]
    refine ⟨h.pending_nodup ha, h.dropped_nodup, ?_⟩
    intro a h1 b h2 e
    exact (h.listed a ((h.pend ha a).1 h1).2).2 (e ▸ h2)
  have hnheld : ∀ i ∈ s.pending ++ s.dropped, i ∉ s.held := by
    intro i hi
    rcases List.mem_append.1 hi with hi | hi
    · exact (h.listed i ((h.pend ha i).1 hi).2).1
    · exact (h.dropped_lt i hi).2
  have hobj : ∀ i, ObjOk (B i) (L i) none (s.objs i) := fun i => by
    have := h.obj i
    rwa [hph i] at this
  have hrefs : ∀ i ∈ s.pending ++ s.dropped, (0 < (s.objs i).refs ↔ L i) := by
    intro i hi
    have h1 := h.gone i (hnheld i hi) (hph i)
    have h2 := (hobj i).high
    simp only [reduceCtorEq, or_self, if_false, h1] at h2
    simpa using h2
  obtain ⟨a1, a2, a3⟩ := clear_spec (s.pending ++ s.dropped) s.objs [] hnd
  generalize clear s.objs [] (s.pending ++ s.dropped) = r at a1 a2 a3
  have hok : ∀ i, ObjOk (B i) (L i) none (r.1 i) := by
    intro i
    rcases a2 i with e | ⟨hm, e, hp, h0⟩
    · rw [e]; exact hobj i
    · rw [e]
      refine absent_ok (fun hb => ?_) (fun hl => ?_)
      · have := ((hobj i).unfinished.2 (Or.inr hb)).2
        rw [hp] at this; cases this
      · have := (hrefs i hm).2 hl
        omega
  have hLpub : ∀ i, L i → (s.objs i).published = true := by
    intro i hl
    apply Classical.byContradiction
    intro hp
    have h1 := (hobj i).unpub (by simpa using hp)
    have h2 := (hobj i).high.2 hl
    simp at h2
    omega
  refine ⟨?_, h.held_lt, h.held_nodup, by simp, by simp, ?_, ?_, ?_, by simp [hc], by simp [hc], ?_, ?_, ?_, ?_⟩
  · intro i hi
    obtain ⟨b1, b2, b3, b4⟩ := h.fresh i hi
    refine ⟨?_, b2, b3, ?_⟩
    · rcases a2 i with e | ⟨-, e, -⟩
      · simp only [e]; exact b1
      · exact e
    · rintro (hd | hd)
      · exact b4 hd
      · have := (h.dropped_lt i hd).1
        simp only at hi
        omega
  · intro hr
    simp only at hr ⊢
    rw [(a3 hr).1]
    simp only [List.nil_append]
    exact hnd.filter _
  · rintro i (hd | hd)
    · exact ⟨(h.listed i hd).1, by simp⟩
    · exact ⟨(h.dropped_lt i hd).2, by simp⟩
  · intro hr i
    simp only at hr
    rw [(a3 hr).1]
    simp only [List.nil_append, List.mem_filter, Bool.and_eq_true, decide_eq_true_eq]
    constructor
    · rintro ⟨hm, -, h0⟩
      refine ⟨(hrefs i hm).1 h0, ?_⟩
      rcases List.mem_append.1 hm with hm | hm
      · exact Or.inl ((h.pend ha i).1 hm).2
      · exact Or.inr hm
    · rintro ⟨hl, hd⟩
      have hm : i ∈ s.pending ++ s.dropped := by
        rcases hd with hd | hd
        · exact List.mem_append.2 (Or.inl ((h.pend ha i).2 ⟨hl, hd⟩))
        · exact List.mem_append.2 (Or.inr hd)
      exact ⟨hm, hLpub i hl, (hrefs i hm).2 hl⟩
  · intro i
    have : ({ s with objs := r.1, pending := r.2.1, alive := r.2.2, dropped := [] } : State).phaseOf i = none := by
      simp [State.phaseOf, hc]
    rw [this]
    exact hok i
  · intro i hi _
    rcases a2 i with e | ⟨-, e, -⟩
    · simp only [e]; exact h.gone i hi (hph i)
    · simp only [e, Obj.absent]
  · intro hr i hres
    simp only at hr hres ⊢
    have hold : (s.objs i).reserved = true := by
      rcases a2 i with e | ⟨-, e, -⟩
      · rwa [e] at hres
      · rw [e] at hres; simp [Obj.absent] at hres
    rcases h.place ha i hold with h' | ⟨c', h1, -⟩ | h'
    · exact Or.inl h'
    · rw [hc] at h1; cases h1
    · right; right; right
      have hm : i ∈ s.pending ++ s.dropped := by
        rcases h' with h' | h' <;> simp [h']
      have hp : (s.objs i).published = true := by
        apply Classical.byContradiction
        intro hp
        have := a1.2 ⟨i, hm, hold, by simpa using hp⟩
        rw [hr] at this; cases this
      rw [(a3 hr).1]
      simp only [List.nil_append, List.mem_filter, Bool.and_eq_true, decide_eq_true_eq]
      refine ⟨hm, hp, ?_⟩
      apply Classical.byContradiction
      intro h0
      have := (a3 hr).2 i hm hp hold (by omega)
      rw [this] at hres
      simp [Obj.absent] at hres
  · simp only
    rw [a1]
    have hno : ¬ ∃ i, B i ∧ D i := by rw [← h.dead, ha]; simp
    constructor
    · rintro ⟨i, hm, h1, h2⟩
      have hb : B i := by
        have := (hobj i).unfinished.1 ⟨h1, h2⟩
        simpa using this
      rcases List.mem_append.1 hm with hm | hm
      · exact ⟨i, hb, Or.inl ((h.pend ha i).1 hm).2⟩
      · exact ⟨i, hb, Or.inr hm⟩
    · rintro ⟨i, hb, hd | hd⟩
      · exact absurd ⟨i, hb, hd⟩ hno
      · have := (hobj i).unfinished.2 (Or.inr hb)
        exact ⟨i, by simp [hd], this.1, this.2⟩

/-- What one step adds to what is known. -/
theorem inv_step {B L D : Nat → Prop} {s s' : State} (h : Inv B L D s) (a : Act) (hs : s.step a = some s') :
    Inv (fun i => B i ∨ a = .signal ∧ s.phaseOf i = some .reserved)
      (fun i => L i ∨ a = .signal ∧ (s.phaseOf i = some .published ∨ s.phaseOf i = some .counted))
      (fun i => D i ∨ a = .cleanup ∧ i ∈ s.dropped) s' := by
  cases a with
  | put =>
    simp only [reduceCtorEq, false_and, or_false]
    simp only [State.step] at hs
    split at hs
    · cases hs
    · rename_i hc
      simp only [Option.some.injEq] at hs
      subst hs
      have hc : s.call = none := by simpa using hc
      obtain ⟨f1, f2, f3, f4⟩ := h.fresh s.next (Nat.le_refl _)
      refine ⟨fun i hi => h.fresh i (by simp only at hi; omega), fun i hi => Nat.lt_succ_of_lt (h.held_lt i hi), h.held_nodup,
        fun i hi => ⟨Nat.lt_succ_of_lt (h.dropped_lt i hi).1, (h.dropped_lt i hi).2⟩, h.dropped_nodup, h.pending_nodup, h.listed, h.pend,
        ?_, ?_, ?_, ?_, ?_, h.dead⟩
      · intro c hc' _
        simp only [Option.some.injEq] at hc'
        subst hc'
        exact ⟨Nat.lt_succ_self _, fun hx => Nat.lt_irrefl _ (h.held_lt _ hx), fun hx => Nat.lt_irrefl _ (h.dropped_lt _ hx).1, f4, f2, f3,
          Or.inl ⟨rfl, f1⟩⟩
      · intro c hc' hp
        simp only [Option.some.injEq] at hc'
        subst hc'
        cases hp
      · intro i
        by_cases hi : i = s.next
        · subst hi
          simp only [State.phaseOf, if_true, f1]
          exact absent_start f2 f3
        · have := h.obj i
          simp only [State.phaseOf, hc] at this
          simp only [State.phaseOf, if_neg (Ne.symm hi)]
          exact this
      · intro i hi hph
        exact h.gone i hi (by simp [State.phaseOf, hc])
      · intro ha i hr
        rcases h.place ha i hr with h' | ⟨c', h1, -⟩ | h'
        · exact Or.inl h'
        · rw [hc] at h1; cases h1
        · exact Or.inr (Or.inr h')
  | task =>
    simp only [reduceCtorEq, false_and, or_false]
    simp only [State.step] at hs
    split at hs
    · cases hs
    · rename_i hc
      simp only [Option.some.injEq] at hs
      subst hs
      have hc : s.call = none := by simpa using hc
      obtain ⟨f1, f2, f3, f4⟩ := h.fresh s.next (Nat.le_refl _)
      have hph : ∀ i, ({ s with next := s.next + 1, held := s.held ++ [s.next] } : State).phaseOf i = s.phaseOf i := fun i => rfl
      refine ⟨fun i hi => h.fresh i (by simp only at hi; omega), ?_, ?_, ?_, h.dropped_nodup, h.pending_nodup, ?_, h.pend,
        by simp [hc], by simp [hc], h.obj, ?_, ?_, h.dead⟩
      · intro i hi
        simp only [List.mem_append, List.mem_singleton] at hi ⊢
        rcases hi with hi | rfl
        · exact Nat.lt_succ_of_lt (h.held_lt i hi)
        · exact Nat.lt_succ_self _
      · simp only
        rw [List.nodup_append]
        refine ⟨h.held_nodup, by simp, ?_⟩
        intro a ha b hb e
        simp only [List.mem_singleton] at hb
        have := h.held_lt a ha
        omega
      · intro i hi
        refine ⟨Nat.lt_succ_of_lt (h.dropped_lt i hi).1, ?_⟩
        simp only [List.mem_append, List.mem_singleton, not_or]
        refine ⟨(h.dropped_lt i hi).2, fun e => ?_⟩
        have := (h.dropped_lt i hi).1
        omega
      · intro i hi
        simp only [List.mem_append, List.mem_singleton, not_or]
        exact ⟨⟨(h.listed i hi).1, fun e => f4 (e ▸ hi)⟩, (h.listed i hi).2⟩
      · intro i hi hp
        simp only [List.mem_append, List.mem_singleton, not_or] at hi
        exact h.gone i hi.1 (by rw [← hph]; exact hp)
      · intro ha i hr
        rcases h.place ha i hr with h' | h'
        · left; simp [h']
        · exact Or.inr h'
  | get id =>
    simp only [reduceCtorEq, false_and, or_false]
    simp only [State.step] at hs
    split at hs
    · rename_i hc
      simp only [Option.some.injEq] at hs
      subst hs
      obtain ⟨hc, hi⟩ := hc
      have hc : s.call = none := by simpa using hc
      refine ⟨h.fresh, h.held_lt, h.held_nodup, h.dropped_lt, h.dropped_nodup, h.pending_nodup, h.listed, h.pend, ?_, ?_, ?_, ?_, ?_, h.dead⟩
      · intro c hc' hp
        simp only [Option.some.injEq] at hc'
        subst hc'
        cases hp
      · intro c hc' _
        simp only [Option.some.injEq] at hc'
        subst hc'
        exact hi
      · intro i
        have := h.obj i
        simp only [State.phaseOf, hc] at this
        simp only [State.phaseOf]
        split
        · exact this.quiet (by simp) (by simp)
        · exact this
      · intro i hi hph
        exact h.gone i hi (by simp [State.phaseOf, hc])
      · intro ha i hr
        rcases h.place ha i hr with h' | ⟨c', h1, -⟩ | h'
        · exact Or.inl h'
        · rw [hc] at h1; cases h1
        · exact Or.inr (Or.inr h')
    · cases hs
  | advance =>
    simp only [reduceCtorEq, false_and, or_false]
    simp only [State.step] at hs
    cases hc : s.call with
    | none => rw [hc] at hs; cases hs
    | some c =>
      rw [hc] at hs
      exact inv_advance h hc hs
  | signal =>
    simp only [reduceCtorEq, false_and, or_false, true_and]
    simp only [State.step] at hs
    cases hc : s.call with
    | none => rw [hc] at hs; cases hs
    | some c =>
      rw [hc] at hs
      simp only at hs
      have hi := inv_signal h hc
      cases hp : c.put with
      | false =>
        rw [hp] at hs hi
        simp only [Bool.false_eq_true, if_false, Option.some.injEq] at hs hi
        subst hs
        exact hi
      | true =>
        rw [hp] at hs hi
        simp only [if_true, Option.some.injEq] at hs hi
        subst hs
        have := inv_lose hi rfl c.id (by simp)
        have he : (s.held ++ [c.id]).erase c.id = s.held.erase c.id := by
          have hn := (h.put c hc hp).2.1
          rw [List.erase_append_right _ hn, List.erase_of_not_mem hn]
          simp
        simp only [State.lose, he] at this
        exact this
  | drop id =>
    simp only [reduceCtorEq, false_and, or_false]
    simp only [State.step] at hs
    split at hs
    · rename_i hc
      simp only [Option.some.injEq] at hs
      subst hs
      exact inv_lose h (by simpa using hc.1) id hc.2
    · cases hs
  | cleanup =>
    simp only [reduceCtorEq, false_and, or_false, true_and]
    simp only [State.step] at hs
    split at hs
    · cases hs
    · rename_i hc
      have hc : s.call = none := by simpa using hc
      split at hs
      · rename_i ha
        simp only [Option.some.injEq] at hs
        subst hs
        exact inv_cleanup h hc ha
      · rename_i ha
        have ha : s.alive = false := by simpa using ha
        simp only [Option.some.injEq] at hs
        subst hs
        obtain ⟨j, hb, hd⟩ := h.dead.1 ha
        refine ⟨?_, h.held_lt, h.held_nodup, by simp, by simp, ?_, ?_, ?_, by simp [hc], by simp [hc], h.obj, h.gone, ?_, ?_⟩
        · intro i hi
          obtain ⟨b1, b2, b3, b4⟩ := h.fresh i hi
          refine ⟨b1, b2, b3, ?_⟩
          rintro (hd | hd)
          · exact b4 hd
          · have := (h.dropped_lt i hd).1
            simp only at hi
            omega
        · intro hr; simp [ha] at hr
        · rintro i (hd | hd)
          · exact ⟨(h.listed i hd).1, by simp⟩
          · exact ⟨(h.dropped_lt i hd).2, by simp⟩
        · intro hr; simp [ha] at hr
        · intro hr; simp [ha] at hr
        · simp only [ha, true_iff]
          exact ⟨j, hb, Or.inl hd⟩

end Verif.InterruptPut
