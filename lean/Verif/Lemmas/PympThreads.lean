import Verif.Model.PympThreads
import Mathlib.Data.List.Induction

namespace Verif.PympThreads

variable {job : Nat → Job}

@[simp] theorem at_pc (s : State) (c d : Nat) (x : Pc) : (s.at c x).pc d = if d = c then x else s.pc d := rfl
@[simp] theorem at_counter (s : State) (c : Nat) (x : Pc) : (s.at c x).counter = s.counter := rfl
@[simp] theorem at_flags (s : State) (c : Nat) (x : Pc) : (s.at c x).flags = s.flags := rfl
@[simp] theorem at_registry (s : State) (c : Nat) (x : Pc) : (s.at c x).registry = s.registry := rfl

theorem at_at (s : State) (c : Nat) (x y : Pc) : (s.at c x).at c y = s.at c y := by
  simp only [State.at, State.mk.injEq, true_and]
  funext d
  split <;> rfl

theorem run_append (as bs : List Nat) (s : State) : s.run job (as ++ bs) = (s.run job as).run job bs := by
  induction as generalizing s with
  | nil => rfl
  | cons a as ih => exact ih _

theorem run_snoc (as : List Nat) (c : Nat) (s : State) : s.run job (as ++ [c]) = (s.run job as).step job c := by
  rw [run_append]; rfl

/-- A step changes only the call that goes on. -/
theorem step_other {s : State} {c d : Nat} (h : d ≠ c) : (s.step job c).pc d = s.pc d := by
  simp only [State.step]
  repeat' split
  all_goals simp [h]

theorem step_length (s : State) (c : Nat) : (s.step job c).flags.length = s.flags.length := by
  simp only [State.step]
  repeat' split
  all_goals simp

theorem run_length (as : List Nat) (s : State) : (s.run job as).flags.length = s.flags.length := by
  induction as generalizing s with
  | nil => rfl
  | cons a as ih => rw [State.run, ih, step_length]

/-- Flags are only set. -/
theorem step_flag {s : State} {c i : Nat} (h : s.flags[i]? = some true) : (s.step job c).flags[i]? = some true := by
  simp only [State.step]
  repeat' split
  all_goals try exact h
  simp only [at_flags]
  rw [List.getElem?_set]
  have := (List.getElem?_eq_some_iff.1 h).1
  split
  · rename_i e; subst e; simp [this]
  · exact h

/-- The numbers of a call in `_next` are those of workers. -/
def Fine (n : Nat) : Pc → Prop
  | .read _ i => i < n
  | .loaded _ i r => i < n ∧ r < n
  | .stored _ i => i < n
  | .wrap _ i => i < n
  | .checked _ i => i < n
  | .adding i => i < n
  | .done (.placed w) => w < n
  | .done .indexError => False
  | _ => True

/-- A call is between the store of the increment and the end of `_next`. -/
def Between : Pc → Prop
  | .stored _ _ => True
  | .wrap _ _ => True
  | _ => False

/-- The invariant of histories in which the counter is not read in between. -/
structure Good (n : Nat) (s : State) : Prop where
  len : s.flags.length = n
  le : s.counter ≤ n
  mid : s.counter = n → n = 0 ∨ ∃ c, Between (s.pc c)
  fine : ∀ c, Fine n (s.pc c)

theorem good_init (n : Nat) : Good n (.init n) := by
  refine ⟨by simp [State.init], Nat.zero_le _, fun h => .inl h.symm, fun c => trivial⟩

theorem fine_at {n : Nat} {s : State} {c : Nat} {x : Pc} (h : ∀ d, Fine n (s.pc d)) (hx : Fine n x) (d : Nat) : Fine n ((s.at c x).pc d) := by
  rw [at_pc]
  split
  · exact hx
  · exact h d

theorem good_step {n : Nat} {s : State} {c : Nat} (hg : Good n s)
    (hr : (∃ k, s.pc c = .top k) ∨ (∃ k i, s.pc c = .read k i) → ∀ d, ¬ Between (s.pc d)) : Good n (s.step job c) := by
  have hmid : ∀ x, ¬ Between (s.pc c) → s.counter = n → n = 0 ∨ ∃ d, Between ((s.at c x).pc d) := by
    intro x hb he
    rcases hg.mid he with h0 | ⟨d, hd⟩
    · exact .inl h0
    · refine .inr ⟨d, ?_⟩
      rw [at_pc, if_neg]
      · exact hd
      · rintro rfl; exact hb hd
  have hf := hg.fine c
  simp only [State.step]
  split
  · rename_i hpc
    split
    · exact ⟨hg.len, hg.le, hmid _ (by simp [hpc, Between]), fine_at hg.fine trivial⟩
    · refine ⟨hg.len, hg.le, fun he => ?_, fine_at (s := { s with registry := _ }) hg.fine trivial⟩
      rcases hg.mid he with h0 | ⟨d, hd⟩
      · exact .inl h0
      · refine .inr ⟨d, ?_⟩
        rw [at_pc, if_neg]
        · exact hd
        · rintro rfl; rw [hpc] at hd; exact hd
  · rename_i k hpc
    split
    · rename_i hk
      have hb := hr (.inl ⟨k, hpc⟩)
      have hlt : s.counter < n := by
        rcases Nat.lt_or_ge s.counter n with h | h
        · exact h
        · rcases hg.mid (Nat.le_antisymm hg.le h) with h0 | ⟨d, hd⟩
          · rw [hg.len] at hk; omega
          · exact absurd hd (hb d)
      exact ⟨hg.len, hg.le, hmid _ (hb c), fine_at hg.fine hlt⟩
    · exact ⟨hg.len, hg.le, hmid _ (by simp [hpc, Between]), fine_at hg.fine trivial⟩
  · rename_i k i hpc
    rw [hpc] at hf
    have hb := hr (.inr ⟨k, i, hpc⟩)
    have hf' : i < n := hf
    have hlt : s.counter < n := by
      rcases Nat.lt_or_ge s.counter n with h | h
      · exact h
      · rcases hg.mid (Nat.le_antisymm hg.le h) with h0 | ⟨d, hd⟩
        · omega
        · exact absurd hd (hb d)
    exact ⟨hg.len, hg.le, hmid _ (hb c), fine_at hg.fine ⟨hf, hlt⟩⟩
  · rename_i k i r hpc
    rw [hpc] at hf
    exact ⟨hg.len, hf.2, fun _ => .inr ⟨c, by simp [Between]⟩, fine_at (s := { s with counter := _ }) hg.fine hf.1⟩
  · rename_i k i hpc
    rw [hpc] at hf
    split
    · exact ⟨hg.len, hg.le, fun _ => .inr ⟨c, by simp [Between]⟩, fine_at hg.fine hf⟩
    · rename_i hne
      rw [hg.len] at hne
      exact ⟨hg.len, hg.le, fun he => absurd he hne, fine_at hg.fine hf⟩
  · rename_i k i hpc
    rw [hpc] at hf
    exact ⟨hg.len, Nat.zero_le _, fun he => .inl he.symm, fine_at (s := { s with counter := _ }) hg.fine hf⟩
  · rename_i k i hpc
    rw [hpc] at hf
    have hnb : ¬ Between (s.pc c) := by simp [hpc, Between]
    split
    · rename_i hnone
      have := List.getElem?_eq_none_iff.1 hnone
      have hf' : i < n := hf
      rw [hg.len] at this
      omega
    · exact ⟨hg.len, hg.le, hmid _ hnb, fine_at hg.fine trivial⟩
    · exact ⟨hg.len, hg.le, hmid _ hnb, fine_at hg.fine hf⟩
  · rename_i i hpc
    rw [hpc] at hf
    exact ⟨hg.len, hg.le, hmid _ (by simp [hpc, Between]), fine_at hg.fine hf⟩
  · rename_i hpc
    exact ⟨hg.len, hg.le, hmid _ (by simp [hpc, Between]), fine_at hg.fine trivial⟩
  · rename_i hpc
    have hnb : ¬ Between (s.pc c) := by simp [hpc, Between]
    split
    all_goals exact ⟨hg.len, hg.le, hmid _ hnb, fine_at hg.fine trivial⟩
  · rename_i hpc
    refine ⟨by simpa using hg.len, hg.le, fun he => ?_, fine_at (s := { s with flags := _ }) hg.fine trivial⟩
    rcases hg.mid he with h0 | ⟨d, hd⟩
    · exact .inl h0
    · refine .inr ⟨d, ?_⟩
      rw [at_pc, if_neg]
      · exact hd
      · rintro rfl; rw [hpc] at hd; exact hd
  · exact hg

theorem good_run {n : Nat} (as : List Nat)
    (h : ∀ pre c post, as = pre ++ c :: post → (∃ k, ((State.init n).run job pre).pc c = .top k) ∨ (∃ k i, ((State.init n).run job pre).pc c = .read k i) →
      ∀ d, ¬ Between (((State.init n).run job pre).pc d)) : Good n ((State.init n).run job as) := by
  induction as using List.reverseRecOn with
  | nil => exact good_init n
  | append_singleton as c ih =>
    rw [run_snoc]
    refine good_step (ih fun pre d post e => h pre d (post ++ [c]) (by simp [e])) (h as c [] rfl)

/-- A call of a function that has seen free workers only. -/
def Plain : Pc → Prop
  | .top k => k = 0
  | .registered => False
  | .looking _ _ => False
  | .marking _ _ => False
  | .done (.made _ _) => False
  | .done .refused => False
  | _ => True

/-- Without creations of actors all workers stay free, and no call is refused. -/
theorem plain_run {n : Nat} (hn : 0 < n) (hj : ∀ c, job c = .call) (as : List Nat) :
    ((State.init n).run job as).flags = List.replicate n false ∧ ∀ c, Plain (((State.init n).run job as).pc c) := by
  induction as using List.reverseRecOn with
  | nil => exact ⟨rfl, fun _ => trivial⟩
  | append_singleton as c ih =>
    rw [run_snoc]
    generalize (State.init n).run job as = s at ih
    obtain ⟨hf, hp⟩ := ih
    have hat : ∀ (u : State) x, u.pc = s.pc → Plain x → ∀ d, Plain ((u.at c x).pc d) := by
      intro u x hu hx d
      rw [at_pc]
      split
      · exact hx
      · rw [hu]; exact hp d
    have hpc := hp c
    simp only [State.step, hj]
    split
    · exact ⟨hf, hat _ _ rfl rfl⟩
    · rename_i k hk
      rw [hk] at hpc
      simp only [Plain] at hpc
      subst hpc
      rw [if_pos (by rw [hf]; simpa using hn)]
      exact ⟨hf, hat _ _ rfl trivial⟩
    · exact ⟨hf, hat _ _ rfl trivial⟩
    · exact ⟨hf, hat _ _ rfl trivial⟩
    · split
      · exact ⟨hf, hat _ _ rfl trivial⟩
      · exact ⟨hf, hat _ _ rfl trivial⟩
    · exact ⟨hf, hat _ _ rfl trivial⟩
    · split
      · exact ⟨hf, hat _ _ rfl trivial⟩
      · rename_i hh
        rw [hf] at hh
        have := List.mem_of_getElem? hh
        simp at this
      · exact ⟨hf, hat _ _ rfl trivial⟩
    · exact ⟨hf, hat _ _ rfl trivial⟩
    all_goals (rename_i hk; try (rw [hk] at hpc; exact hpc.elim))
    exact ⟨hf, hp⟩

/-- What the place of a call tells about the flags. -/
def Told (n : Nat) (fl : List Bool) : Job → Pc → Prop
  | .actor _, .idle => True
  | .actor _, .registered => True
  | .actor _, .looking _ i => ∀ j < i, fl[j]? = some true
  | .actor _, .marking _ i => i < n
  | .actor _, .done (.made _ i) => fl[i]? = some true
  | .actor _, .done .refused => ∀ j < n, fl[j]? = some true
  | .actor _, _ => False
  | .call, .registered => False
  | .call, .looking _ _ => False
  | .call, .marking _ _ => False
  | .call, .done (.made _ _) => False
  | .call, _ => True

theorem told_mono {n : Nat} {fl fl' : List Bool} (h : ∀ i : Nat, fl[i]? = some true → fl'[i]? = some true) (j : Job) (x : Pc) (ht : Told n fl j x) : Told n fl' j x := by
  cases j with
  | call => cases x <;> first | exact ht | (rename_i r; cases r <;> exact ht)
  | actor cls =>
    cases x <;> first
      | exact ht
      | exact fun j hj => h j (ht j hj)
      | (rename_i r; cases r <;> first | exact ht | exact h _ ht | exact fun j hj => h j (ht j hj))

theorem told_step {n : Nat} {s : State} {c : Nat} (hl : s.flags.length = n) (h : ∀ d, Told n s.flags (job d) (s.pc d)) :
    ∀ d, Told n (s.step job c).flags (job d) ((s.step job c).pc d) := by
  intro d
  by_cases hd : d = c
  · subst hd
    have hc := h d
    cases hj : job d with
    | call =>
      rw [hj] at hc
      simp only [State.step, hj]
      split <;> rename_i hpc <;> rw [hpc] at hc
      all_goals first | exact hc.elim | skip
      all_goals first | (simp only [at_pc, if_true]; exact trivial) | skip
      · split <;> (simp only [at_pc, if_true]; exact trivial)
      · split <;> (simp only [at_pc, if_true]; exact trivial)
      · split <;> (simp only [at_pc, if_true]; exact trivial)
      · rw [hpc]; exact hc
    | actor cls =>
      rw [hj] at hc
      simp only [State.step, hj]
      split <;> rename_i hpc <;> rw [hpc] at hc
      all_goals first | exact hc.elim | skip
      · simp only [at_pc, if_true]; exact trivial
      · simp only [at_pc, if_true]; intro j hj; omega
      · rename_i k i
        split
        · rename_i hnone
          have := List.getElem?_eq_none_iff.1 hnone
          simp only [at_pc, if_true]
          exact fun j hj => hc j (by omega)
        · rename_i ht
          simp only [at_pc, if_true]
          intro j hj
          rcases Nat.lt_or_ge j i with hji | hji
          · exact hc j hji
          · have : j = i := by omega
            subst this; exact ht
        · rename_i ht
          simp only [at_pc, if_true]
          have := (List.getElem?_eq_some_iff.1 ht).1
          show i < n
          omega
      · rename_i k i
        have hi : i < n := hc
        simp only [at_pc, if_true]
        show (s.flags.set i true)[i]? = some true
        simp [List.getElem?_set, hl, hi]
      · rw [hpc]; exact hc
  · rw [step_other hd]
    exact told_mono (fun i hi => step_flag hi) _ _ (h d)

theorem told_run {n : Nat} (as : List Nat) : ∀ d, Told n ((State.init n).run job as).flags (job d) (((State.init n).run job as).pc d) := by
  induction as using List.reverseRecOn with
  | nil => intro d; cases hj : job d <;> simp [State.run, State.init, Told]
  | append_singleton as c ih =>
    rw [run_snoc]
    exact told_step (by rw [run_length]; simp [State.init]) ih

/-- The actors while no flag is looked at that another creation is about to set. -/
structure Apart (s : State) : Prop where
  made : ∀ c d k l w w', s.pc c = .done (.made k w) → s.pc d = .done (.made l w') → c ≠ d → w ≠ w'
  mark : ∀ c k i, s.pc c = .marking k i → s.flags[i]? = some false
  one : ∀ c d k i l j, s.pc c = .marking k i → s.pc d = .marking l j → c = d

theorem apart_init (n : Nat) : Apart (.init n) := by constructor <;> intros <;> simp_all [State.init]

theorem apart_same {s : State} {c : Nat} {u : State} {x : Pc} (h : Apart s) (hu : u.pc = s.pc) (hf : u.flags = s.flags) (h1 : ∀ k i, x ≠ .marking k i)
    (h2 : ∀ k w, x ≠ .done (.made k w)) : Apart (u.at c x) := by
  refine ⟨fun a b k l w w' ha hb hab => ?_, fun a k i ha => ?_, fun a b k i l j ha hb => ?_⟩
  · rw [at_pc] at ha hb
    split at ha
    · exact absurd ha (h2 _ _)
    · split at hb
      · exact absurd hb (h2 _ _)
      · rw [hu] at ha hb; exact h.made a b k l w w' ha hb hab
  · rw [at_pc] at ha
    split at ha
    · exact absurd ha (h1 _ _)
    · rw [hu] at ha; simp only [at_flags, hf]; exact h.mark a k i ha
  · rw [at_pc] at ha hb
    split at ha
    · exact absurd ha (h1 _ _)
    · split at hb
      · exact absurd hb (h1 _ _)
      · rw [hu] at ha hb; exact h.one a b k i l j ha hb

theorem apart_step {n : Nat} {s : State} {c : Nat} (h : Apart s) (ht : ∀ d, Told n s.flags (job d) (s.pc d))
    (hr : (∃ k i, s.pc c = .looking k i) → ∀ d k i, s.pc d ≠ .marking k i) : Apart (s.step job c) := by
  simp only [State.step]
  split
  · split
    · exact apart_same h rfl rfl (by simp) (by simp)
    · exact apart_same (u := { s with registry := _ }) h rfl rfl (by simp) (by simp)
  · split <;> exact apart_same h rfl rfl (by simp) (by simp)
  · exact apart_same h rfl rfl (by simp) (by simp)
  · exact apart_same (u := { s with counter := _ }) h rfl rfl (by simp) (by simp)
  · split <;> exact apart_same h rfl rfl (by simp) (by simp)
  · exact apart_same (u := { s with counter := _ }) h rfl rfl (by simp) (by simp)
  · split <;> exact apart_same h rfl rfl (by simp) (by simp)
  · exact apart_same h rfl rfl (by simp) (by simp)
  · exact apart_same h rfl rfl (by simp) (by simp)
  · rename_i k i hpc
    have hno := hr ⟨k, i, hpc⟩
    split
    · exact apart_same h rfl rfl (by simp) (by simp)
    · exact apart_same h rfl rfl (by simp) (by simp)
    · rename_i hf
      refine ⟨fun a b k l w w' ha hb hab => ?_, fun a k j ha => ?_, fun a b k j l j' ha hb => ?_⟩
      · rw [at_pc] at ha hb
        split at ha
        · cases ha
        · split at hb
          · cases hb
          · exact h.made a b k l w w' ha hb hab
      · rw [at_pc] at ha
        split at ha
        · cases ha; exact hf
        · exact absurd ha (hno a k j)
      · rw [at_pc] at ha hb
        split at ha
        · split at hb
          · rename_i e1 e2; rw [e1, e2]
          · exact absurd hb (hno b l j')
        · exact absurd ha (hno a k j)
  · rename_i k i hpc
    have hfl := h.mark c k i hpc
    refine ⟨fun a b k' l w w' ha hb hab => ?_, fun a k' j ha => ?_, fun a b k' j l j' ha hb => ?_⟩
    · have told : ∀ d k w, s.pc d = .done (.made k w) → w ≠ i := by
        intro d k w hd e
        have := ht d
        rw [hd] at this
        cases hj : job d with
        | call => rw [hj] at this; exact this
        | actor cls =>
          rw [hj, e] at this
          simp only [Told] at this
          rw [hfl] at this; cases this
      rw [at_pc] at ha hb
      split at ha
      · cases ha
        split at hb
        · rename_i e1 e2; exact absurd (e1.trans e2.symm) hab
        · exact fun e => told b l w' hb e.symm
      · split at hb
        · cases hb; exact told a k' w ha
        · exact h.made a b k' l w w' ha hb hab
    · rw [at_pc] at ha
      split at ha
      · cases ha
      · rename_i hne; exact absurd (h.one a c k' j k i ha hpc) hne
    · rw [at_pc] at ha hb
      split at ha
      · cases ha
      · split at hb
        · cases hb
        · exact h.one a b k' j l j' ha hb
  · exact h

theorem apart_run {n : Nat} (as : List Nat)
    (h : ∀ pre c post, as = pre ++ c :: post → (∃ k i, ((State.init n).run job pre).pc c = .looking k i) →
      ∀ d k i, ((State.init n).run job pre).pc d ≠ .marking k i) : Apart ((State.init n).run job as) := by
  induction as using List.reverseRecOn with
  | nil => exact apart_init n
  | append_singleton as c ih =>
    rw [run_snoc]
    exact apart_step (ih fun pre d post e => h pre d (post ++ [c]) (by simp [e])) (told_run as) (h as c [] rfl)

/-- A call is at its beginning until it goes on for the first time. -/
theorem idle_iff {n : Nat} (as : List Nat) (c : Nat) : ((State.init n).run job as).pc c = .idle ↔ c ∉ as := by
  induction as using List.reverseRecOn with
  | nil => simp [State.run, State.init]
  | append_singleton as d ih =>
    rw [run_snoc]
    by_cases hd : c = d
    · subst hd
      simp only [List.mem_append, List.mem_singleton, or_true, not_true_eq_false, iff_false]
      simp only [State.step]
      repeat' split
      all_goals first | simp | (rename_i hpc; rw [hpc]; simp)
    · rw [step_other hd, ih]
      simp [hd]

theorem step_registry (s : State) (c : Nat) : (s.step job c).registry = s.registry ∨ s.pc c = .idle ∧ ∃ cls, job c = .actor cls ∧ (s.step job c).registry = cls := by
  simp only [State.step]
  split
  · rename_i hpc
    split
    · exact .inl rfl
    · rename_i cls hj; exact .inr ⟨hpc, cls, hj, rfl⟩
  all_goals first | exact .inl rfl | (split <;> exact .inl rfl)

/-- The registry has the class of the last creation that was begun. -/
theorem registry_run {n : Nat} (p1 p2 : List Nat) (d kd : Nat) (hd : d ∉ p1) (hj : job d = .actor kd)
    (h2 : ∀ e ∈ p2, (∃ cls, job e = .actor cls) → e ∈ p1 ∨ e = d) : ((State.init n).run job (p1 ++ d :: p2)).registry = kd := by
  induction p2 using List.reverseRecOn with
  | nil =>
    rw [run_snoc]
    have := (idle_iff (n := n) (job := job) p1 d).2 hd
    simp only [State.step, this, hj]
    rfl
  | append_singleton p2 e ih =>
    have ih := ih fun x hx => h2 x (by simp [hx])
    rw [← List.cons_append, ← List.append_assoc, run_snoc]
    rcases step_registry ((State.init n).run job (p1 ++ d :: p2)) e with h | ⟨hi, cls, hc, -⟩
    · rw [h]; exact ih
    · rw [idle_iff] at hi
      rcases h2 e (by simp) ⟨cls, hc⟩ with h | h
      · exact absurd (by simp [h]) hi
      · exact absurd (by simp [h]) hi

/-- A creation has an object of class `k`. -/
def Has (k : Nat) : Pc → Prop
  | .looking l _ => l = k
  | .marking l _ => l = k
  | .done (.made l _) => l = k
  | .done .refused => True
  | _ => False

theorem has_run {k c : Nat} (as : List Nat) : ∀ {s : State}, Has k (s.pc c) → Has k ((s.run job as).pc c) := by
  induction as with
  | nil => intro s h; exact h
  | cons d as ih =>
    intro s h
    refine ih ?_
    by_cases hd : c = d
    · subst hd
      simp only [State.step]
      split <;> rename_i hpc <;> rw [hpc] at h <;> first | exact h.elim | skip
      · split <;> simp only [at_pc, if_true] <;> first | exact trivial | exact h
      · simp only [at_pc, if_true]; exact h
      · rw [hpc]; exact h
    · rw [step_other hd]; exact h

/-- The counter has left the workers for ever, and the calls that have not begun find no worker. -/
def Lost (n : Nat) (s : State) : Pc → Prop
  | .idle => True
  | .top k => k = 0
  | .read _ i => n ≤ i
  | .loaded _ i r => n ≤ i ∧ n ≤ r
  | .stored _ i => n ≤ i ∧ n < s.counter
  | .wrap _ _ => False
  | .checked _ i => n ≤ i
  | .done .indexError => True
  | _ => False

theorem lost_run {n : Nat} (hn : 0 < n) (hj : ∀ c, job c = .call) (P : Nat → Prop) (as : List Nat) : ∀ {s : State}, s.flags.length = n → n ≤ s.counter →
    (∀ c, P c → Lost n s (s.pc c)) → (∀ c, ¬ P c → ∃ r, s.pc c = .done r) → ∀ c, P c → Lost n (s.run job as) ((s.run job as).pc c) := by
  induction as with
  | nil => intro s _ _ h _; exact h
  | cons d as ih =>
    intro s hl hc hp hq
    by_cases hd : P d
    · have hlost := hp d hd
      have main : ∀ (u : State) (x : Pc), u.flags = s.flags → u.pc = s.pc → s.counter ≤ u.counter ∨ n < u.counter → Lost n u x →
          s.step job d = u.at d x → ∀ c, P c → Lost n (s.run job (d :: as)) ((s.run job (d :: as)).pc c) := by
        intro u x hf hu hle hx hs
        have mono : ∀ y, Lost n s y → Lost n u y := by
          intro y hy
          cases y with
          | stored k i => exact ⟨hy.1, by rcases hle with h | h; exact Nat.lt_of_lt_of_le hy.2 h; exact h⟩
          | done r => cases r <;> exact hy
          | _ => exact hy
        have mono' : ∀ y, Lost n u y → Lost n (u.at d x) y := fun y hy => hy
        simp only [State.run]
        rw [hs]
        refine ih (by simpa [hf] using hl) (by simp only [at_counter]; omega) (fun c hPc => ?_) (fun c hPc => ?_)
        · rw [at_pc]
          split
          · exact mono' _ hx
          · rw [hu]; exact mono' _ (mono _ (hp c hPc))
        · rw [at_pc, if_neg (by rintro rfl; exact hPc hd), hu]; exact hq c hPc
      cases hpc : s.pc d <;> rw [hpc] at hlost <;> first | exact hlost.elim | skip
      · exact main s (.top 0) rfl rfl (.inl (Nat.le_refl _)) rfl (by simp [State.step, hpc, hj])
      · rename_i k
        have hk : k = 0 := hlost
        subst hk
        exact main s (.read 0 s.counter) rfl rfl (.inl (Nat.le_refl _)) hc (by simp [State.step, hpc, hl, hn])
      · rename_i k i
        exact main s (.loaded k i s.counter) rfl rfl (.inl (Nat.le_refl _)) ⟨hlost, hc⟩ (by simp [State.step, hpc])
      · rename_i k i r
        have h1 : n ≤ i ∧ n ≤ r := hlost
        exact main { s with counter := r + 1 } (.stored k i) rfl rfl (.inr (by simp only; omega)) ⟨h1.1, by simp only; omega⟩ (by simp [State.step, hpc])
      · rename_i k i
        have h1 : n ≤ i ∧ n < s.counter := hlost
        exact main s (.checked k i) rfl rfl (.inl (Nat.le_refl _)) h1.1
          (by simp only [State.step, hpc]; rw [if_neg (by omega)])
      · rename_i k i
        have h1 : n ≤ i := hlost
        refine main s (.done .indexError) rfl rfl (.inl (Nat.le_refl _)) trivial ?_
        have : s.flags[i]? = none := List.getElem?_eq_none (by omega)
        simp only [State.step, hpc, this]
      · rename_i r
        have hs : s.step job d = s := by simp only [State.step, hpc]
        simp only [State.run]
        rw [hs]
        exact ih hl hc hp hq
    · obtain ⟨r, hr⟩ := hq d hd
      have hs : s.step job d = s := by simp only [State.step, hr]
      simp only [State.run]
      rw [hs]
      exact ih hl hc hp hq

/-- A call that nobody disturbs, with a free worker at the counter. -/
theorem one {s : State} {c : Nat} (hpc : s.pc c = .idle) (hj : job c = .call) (hf : s.flags[s.counter]? = some false) (hlt : s.counter + 1 < s.flags.length) :
    s.run job [c, c, c, c, c, c, c] = { s with counter := s.counter + 1 }.at c (.done (.placed s.counter)) := by
  have h0 : 0 < s.flags.length := by omega
  have h1 : s.counter + 1 ≠ s.flags.length := by omega
  simp [State.run, State.step, hpc, hj, h0, h1, hf, at_at, State.at]
  funext d
  split <;> simp_all

/-- The first calls, one after the other. -/
theorem calls_run (hj : ∀ c, job c = .call) (n m : Nat) (h : m < n) : ∃ as : List Nat,
    ((State.init n).run job as).counter = m ∧ ((State.init n).run job as).flags = List.replicate n false ∧
    ∀ c, ((State.init n).run job as).pc c = if c < m then .done (.placed c) else .idle := by
  induction m with
  | zero => exact ⟨[], rfl, rfl, fun c => rfl⟩
  | succ m ih =>
    obtain ⟨as, h1, h2, h3⟩ := ih (by omega)
    refine ⟨as ++ [m, m, m, m, m, m, m], ?_⟩
    rw [run_append]
    generalize (State.init n).run job as = s at *
    rw [one (by rw [h3]; simp) (hj m) (by rw [h1, h2, List.getElem?_replicate, if_pos (by omega)]) (by rw [h1, h2]; simpa using h)]
    refine ⟨congrArg (· + 1) h1, h2, fun c => ?_⟩
    simp only [at_pc, h3, h1]
    split
    · rename_i e; subst e; rw [if_pos (by omega)]
    · split <;> split <;> first | rfl | omega

/-- One round of `submit` that nobody disturbs. -/
theorem round {s : State} {c k : Nat} (hpc : s.pc c = .top k) (hk : k < s.flags.length) (hlt : s.counter < s.flags.length) :
    ∃ t, s.run job (List.replicate t c) = { s with counter := (s.counter + 1) % s.flags.length }.at c (.checked k s.counter) := by
  by_cases h1 : s.counter + 1 = s.flags.length
  · refine ⟨5, ?_⟩
    have h2 : (s.counter + 1) % s.flags.length = 0 := by rw [h1]; exact Nat.mod_self _
    rw [h2]
    simp [List.replicate, State.run, State.step, hpc, hk, h1, State.at]
    funext d
    split <;> simp_all
  · refine ⟨4, ?_⟩
    have h2 : (s.counter + 1) % s.flags.length = s.counter + 1 := Nat.mod_eq_of_lt (by omega)
    rw [h2]
    simp [List.replicate, State.run, State.step, hpc, hk, h1, State.at]
    funext d
    split <;> simp_all

/-- A call of a function that nobody disturbs. -/
theorem alone (j : Nat) : ∀ {s : State} {c k : Nat}, s.pc c = .top k → k + j = s.flags.length → s.counter < s.flags.length →
    ∃ t, ∃ u, s.run job (List.replicate t c) = u ∧ u.flags = s.flags ∧ u.counter < s.flags.length ∧ (∀ d, d ≠ c → u.pc d = s.pc d) ∧
      ((∃ i, i < j ∧ u.pc c = .done (.placed ((s.counter + i) % s.flags.length)) ∧ s.flags[(s.counter + i) % s.flags.length]? = some false ∧
          u.counter = (s.counter + i + 1) % s.flags.length ∧ ∀ i' < i, s.flags[(s.counter + i') % s.flags.length]? = some true) ∨
        (u.pc c = .done .refused ∧ ∀ i' < j, s.flags[(s.counter + i') % s.flags.length]? = some true)) := by
  induction j with
  | zero =>
    intro s c k hpc hk hlt
    refine ⟨1, _, rfl, ?_, ?_, fun d hd => ?_, .inr ⟨?_, by omega⟩⟩
    all_goals simp [List.replicate, State.run, State.step, hpc, show ¬ k < s.flags.length by omega]
    · exact hlt
    · exact fun e => absurd e hd
  | succ j ih =>
    intro s c k hpc hk hlt
    obtain ⟨t, ht⟩ := round (job := job) hpc (by omega) hlt
    have hmod : s.counter % s.flags.length = s.counter := Nat.mod_eq_of_lt hlt
    cases hf : s.flags[s.counter]'hlt with
    | false =>
      refine ⟨t + 2, _, rfl, ?_⟩
      have hfl : s.flags[s.counter]? = some false := by rw [List.getElem?_eq_getElem hlt, hf]
      have hrun : s.run job (List.replicate (t + 2) c) = { s with counter := (s.counter + 1) % s.flags.length }.at c (.done (.placed s.counter)) := by
        rw [← List.replicate_append_replicate, run_append, ht]
        simp only [List.replicate, State.run, State.step, at_pc, if_true, at_flags, hfl, at_at]
      rw [hrun]
      refine ⟨rfl, Nat.mod_lt _ (by omega), fun d hd => by simp [hd], .inl ⟨0, by omega, ?_, ?_, ?_, by omega⟩⟩
      · simp [hmod]
      · rw [Nat.add_zero, hmod]; exact hfl
      · rfl
    | true =>
      have hfl : s.flags[s.counter]? = some true := by rw [List.getElem?_eq_getElem hlt, hf]
      have hrun : s.run job (List.replicate (t + 1) c) = { s with counter := (s.counter + 1) % s.flags.length }.at c (.top (k + 1)) := by
        rw [← List.replicate_append_replicate, run_append, ht]
        simp only [List.replicate, State.run, State.step, at_pc, if_true, at_flags, hfl, at_at]
      obtain ⟨t', u, hu, h1, h2, h3, h4⟩ := ih (s := { s with counter := (s.counter + 1) % s.flags.length }.at c (.top (k + 1))) (c := c) (k := k + 1)
        (by simp) (by simp; omega) (Nat.mod_lt _ (by omega))
      have hcnt : ({ s with counter := (s.counter + 1) % s.flags.length }.at c (.top (k + 1))).counter = (s.counter + 1) % s.flags.length := rfl
      have hfls : ({ s with counter := (s.counter + 1) % s.flags.length }.at c (.top (k + 1))).flags = s.flags := rfl
      rw [hcnt, hfls] at h4
      have hadd : ∀ i, ((s.counter + 1) % s.flags.length + i) % s.flags.length = (s.counter + (i + 1)) % s.flags.length := by
        intro i
        rw [Nat.mod_add_mod]; congr 1; omega
      have hadd' : ∀ i, ((s.counter + 1) % s.flags.length + i + 1) % s.flags.length = (s.counter + (i + 1) + 1) % s.flags.length := by
        intro i
        rw [Nat.add_assoc, Nat.mod_add_mod]; congr 1; omega
      refine ⟨t + 1 + t', u, by rw [← List.replicate_append_replicate, run_append, hrun]; exact hu, h1, h2, fun d hd => ?_, ?_⟩
      · rw [h3 d hd]; simp [hd]
      · have hstep : ∀ m, (∀ i' < m, s.flags[((s.counter + 1) % s.flags.length + i') % s.flags.length]? = some true) →
            ∀ i' < m + 1, s.flags[(s.counter + i') % s.flags.length]? = some true := by
          intro m hm i' hi'
          cases i' with
          | zero => rw [Nat.add_zero, hmod]; exact hfl
          | succ i' => rw [← hadd]; exact hm i' (by omega)
        rcases h4 with ⟨i, hij, g1, g2, g3, g4⟩ | ⟨g1, g2⟩
        · exact .inl ⟨i + 1, by omega, by rw [g1, hadd], by rw [← hadd]; exact g2, by rw [g3, hadd'], hstep i g4⟩
        · exact .inr ⟨g1, hstep j g2⟩

end Verif.PympThreads
