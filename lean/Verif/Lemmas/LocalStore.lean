import Verif.Model.LocalStore

/-! Lemmas about the lifetime of data. -/
namespace Verif.LocalStore

theorem lookup_filter {α : Type} (l : List (Id × α)) (p : Id → Bool) (id : Id) (h : p id = true) :
    lookup (l.filter fun e => p e.1) id = lookup l id := by
  unfold lookup
  congr 1
  induction l with
  | nil => rfl
  | cons e l ih =>
    by_cases he : e.1 = id
    · subst he
      simp [h]
    · by_cases hp : p e.1 = true
      · simp [hp, he]
        simpa using ih
      · simp [hp, he]
        simpa using ih

theorem lookup_assign {α : Type} (l : List (Id × α)) (id id' : Id) (v : α) :
    lookup (assign l id v) id' = if id = id' then some v else lookup l id' := by
  unfold assign
  by_cases h : id = id'
  · simp [lookup, h]
  · have := lookup_filter l (fun i => decide (i ≠ id)) id' (by simpa using fun e => h e.symm)
    rw [if_neg h, ← this]
    simp [lookup, h]

/-- The data found for a reference. -/
def Store.datum (s : Store) (id : Id) : Option Val := (lookup s.data id).orElse fun _ => lookup s.cache id

theorem passes_fields (n : Nat) (s : Store) : (s.passes n).me = s.me ∧ (s.passes n).held = s.held ∧
    (s.passes n).strong = s.strong ∧ (s.passes n).counter = s.counter := by
  induction n generalizing s with
  | zero => exact ⟨rfl, rfl, rfl, rfl⟩
  | succ n ih => exact ih s.pass

theorem passes_lookup (n : Nat) (s : Store) (id : Id) (h : id ∈ s.held ∨ id ∈ s.strong) :
    lookup (s.passes n).data id = lookup s.data id ∧ lookup (s.passes n).cache id = lookup s.cache id ∧
      lookup (s.passes n).owners id = lookup s.owners id := by
  induction n generalizing s with
  | zero => exact ⟨rfl, rfl, rfl⟩
  | succ n ih =>
    have ha : s.alive id = true := by
      rcases h with h | h <;> simp [Store.alive, h]
    have := ih s.pass (by exact h)
    simp only [Store.passes]
    refine ⟨this.1.trans ?_, this.2.1.trans ?_, this.2.2.trans ?_⟩
    · exact lookup_filter _ _ _ ha
    · exact lookup_filter _ _ _ ha
    · exact lookup_filter _ _ _ ha

theorem sweep_lookup (s : Store) (id : Id) (h : id ∈ s.held ∨ id ∈ s.strong) :
    lookup s.sweep.data id = lookup s.data id ∧ lookup s.sweep.cache id = lookup s.cache id ∧
      lookup s.sweep.owners id = lookup s.owners id := passes_lookup _ s id h

theorem sweep_fields (s : Store) : s.sweep.me = s.me ∧ s.sweep.held = s.held ∧ s.sweep.strong = s.strong ∧
    s.sweep.counter = s.counter := passes_fields _ s

theorem pass_fix_of_length {s : Store} (h : s.pass.data.length = s.data.length) : s.pass.data = s.data :=
  List.Sublist.eq_of_length List.filter_sublist h

theorem pass_alive_of_data {s : Store} (h : s.pass.data = s.data) (id : Id) : s.pass.alive id = s.alive id := by
  unfold Store.alive
  rw [h]
  rfl

theorem pass_pass_of_data {s : Store} (h : s.pass.data = s.data) : s.pass.pass = s.pass := by
  have ha := pass_alive_of_data h
  have e : (fun e : Id × Val => s.pass.alive e.1) = fun e => s.alive e.1 := by funext e; exact ha e.1
  have e' : (fun e : Id × Nat => s.pass.alive e.1) = fun e => s.alive e.1 := by funext e; exact ha e.1
  show ({ s.pass with
    data := s.pass.data.filter fun e => s.pass.alive e.1
    cache := s.pass.cache.filter fun e => s.pass.alive e.1
    owners := s.pass.owners.filter fun e => s.pass.alive e.1 } : Store) = s.pass
  rw [e, e']
  simp only [Store.pass, List.filter_filter, Bool.and_self]

theorem passes_fix {s : Store} (h : s.pass = s) (n : Nat) : s.passes n = s := by
  induction n with
  | zero => rfl
  | succ n ih => rw [Store.passes, h, ih]

theorem passes_closed (n : Nat) (s : Store) (h : s.data.length < n) : (s.passes n).pass = s.passes n := by
  induction n generalizing s with
  | zero => omega
  | succ n ih =>
    rw [Store.passes]
    by_cases hl : s.pass.data.length = s.data.length
    · have := pass_pass_of_data (pass_fix_of_length hl)
      rw [passes_fix this]
      exact this
    · have hle : s.pass.data.length ≤ s.data.length := List.length_filter_le _ _
      exact ih s.pass (by omega)

theorem sweep_closed (s : Store) : s.sweep.pass = s.sweep := passes_closed _ s (Nat.lt_succ_self _)

theorem keep_fields (s : Store) (id : Id) : (s.keep id).me = s.me ∧ (s.keep id).held = s.held ∧ (s.keep id).data = s.data ∧
    (s.keep id).cache = s.cache ∧ (s.keep id).owners = s.owners ∧ (s.keep id).counter = s.counter := by
  unfold Store.keep
  split <;> simp

theorem keep_strong_mono (s : Store) (id i : Id) (h : i ∈ s.strong) : i ∈ (s.keep id).strong := by
  unfold Store.keep
  split
  · exact List.mem_cons_of_mem _ h
  · exact h

theorem keep_strong (s : Store) (id : Id) (h : id.1 ≠ s.me) : id ∈ (s.keep id).strong := by
  unfold Store.keep
  split
  · exact List.mem_cons_self
  · rename_i hn
    by_cases hs : id ∈ s.strong
    · exact hs
    · exact absurd ⟨h, hs⟩ hn

theorem act_me (s : Store) (op : Op) : (s.act op).me = s.me := by
  cases op <;> simp only [Store.act]
  case get id => split <;> simp [keep_fields]
  all_goals simp [keep_fields]

theorem step_me (s : Store) (op : Op) : (s.step op).me = s.me := by
  rw [Store.step, (sweep_fields _).1, act_me]

theorem run_me (s : Store) (ops : List Op) : (s.run ops).me = s.me := by
  induction ops generalizing s with
  | nil => rfl
  | cons op l ih => exact (ih (s.step op)).trans (step_me s op)

end Verif.LocalStore
