import Verif.Props.ActorLife
import Mathlib.Data.List.Induction

/-!
# C107 on multiprocessing: exactly which calls and tasks are lost
-/
namespace Verif.Props
open Verif.ActorLife

/-- At some moment of the history, in a state with this property, this step was made. -/
def Happens (n : Nat) (os : List POp) (P : Pymp → POp → Prop) : Prop :=
  ∃ pre o post u, os = pre ++ o :: post ∧ (Pymp.init n).run pre = some u ∧ P u o

/-- The call or task with this number was given to this worker. -/
def GivenTo (n : Nat) (os : List POp) (c w : Nat) : Prop :=
  Happens n os fun u o => u.jobs = c ∧ (o = .task w ∨ ∃ a, o = .call a ∧ u.place a = w)

/-- The handle of an actor was dropped while this call of it was waiting in the queue of this worker. -/
def DroppedQueued (n : Nat) (os : List POp) (w c : Nat) : Prop :=
  Happens n os fun u o => ∃ a, o = .drop a ∧ ∃ j ∈ u.queue w, j.actor = some a ∧ j.number = c

/-- The handle of an actor was dropped while this call of it was running. -/
def DroppedRunning (n : Nat) (os : List POp) (c : Nat) : Prop :=
  Happens n os fun u o => ∃ a, o = .drop a ∧ ∃ w j, u.running w = some j ∧ j.actor = some a ∧ j.number = c

theorem happens_snoc {n : Nat} {os : List POp} {o : POp} {P : Pymp → POp → Prop} {s : Pymp} (h : (Pymp.init n).run os = some s) :
    Happens n (os ++ [o]) P ↔ Happens n os P ∨ P s o := by
  constructor
  · rintro ⟨pre, x, post, u, e, hu, hp⟩
    rcases List.eq_nil_or_concat post with rfl | ⟨post, y, rfl⟩
    · obtain ⟨rfl, e2⟩ := List.append_inj' e rfl
      rw [h] at hu
      cases hu
      cases e2
      exact .inr hp
    · have e' : os ++ [o] = (pre ++ x :: post) ++ [y] := by simpa using e
      obtain ⟨e1, -⟩ := List.append_inj' e' rfl
      exact .inl ⟨pre, x, post, u, e1, hu, hp⟩
  · rintro (⟨pre, x, post, u, rfl, hu, hp⟩ | hp)
    · exact ⟨pre, x, post ++ [o], u, by simp, hu, hp⟩
    · exact ⟨os, o, [], s, rfl, h, hp⟩

/-- What is known of every state: `G` tells which jobs were given to which worker, `D` which calls were queued and `H` which were running
when their actor was dropped. -/
structure LostInv (G D : Nat → Nat → Prop) (H : Nat → Prop) (s : Pymp) : Prop where
  given : ∀ c w, G c w → c < s.jobs
  one : ∀ c w w', G c w → G c w' → w = w'
  all : ∀ c < s.jobs, ∃ w, G c w
  servers : s.servers = s.live
  liveLt : ∀ a ∈ s.live, a < s.actors
  queueG : ∀ w, ∀ j ∈ s.queue w, G j.number w
  runG : ∀ w j, s.running w = some j → G j.number w
  sorted : ∀ w, (s.queue w).Pairwise (·.number < ·.number)
  runLt : ∀ w j, s.running w = some j → ∀ j' ∈ s.queue w, j.number < j'.number
  queueA : ∀ w, ∀ j ∈ s.queue w, ∀ a, j.actor = some a → a < s.actors ∧ (a ∈ s.live ∨ D w j.number)
  runA : ∀ w j, s.running w = some j → ∀ a, j.actor = some a → a < s.actors ∧ (a ∈ s.live ∨ H j.number)
  ended : ∀ w, s.ended w = true → s.running w = none ∧ ∃ k, D w k ∧ ∀ j ∈ s.queue w, k < j.number
  dG : ∀ w k, D w k → G k w
  cases : ∀ c w, G c w → s.result c ≠ none ∨ (∃ j, s.running w = some j ∧ j.number = c) ∨ (∃ j ∈ s.queue w, j.number = c) ∨
    (s.ended w = true ∧ D w c)
  bound : ∀ c, s.jobs ≤ c → s.result c = none
  runN : ∀ w j, s.running w = some j → s.result j.number = none
  resLt : ∀ c w, G c w → s.result c ≠ none → ∀ j ∈ s.queue w, c < j.number
  doom : ∀ w k, D w k → (∃ j ∈ s.queue w, j.number = k ∧ ∃ a, j.actor = some a ∧ a ∉ s.live ∧ a < s.actors) ∨ s.ended w = true
  doomR : ∀ w k, D w k → (∀ c, G c w → k ≤ c → s.result c = none) ∧ ∀ j, s.running w = some j → j.number < k
  hit : ∀ c, H c → s.result c = some .exception ∨
    ∃ w j, s.running w = some j ∧ j.number = c ∧ ∃ a, j.actor = some a ∧ a ∉ s.live ∧ a < s.actors
  exc : ∀ c, s.result c = some .exception → H c

theorem mem_setAt_append {q : Nat → List Job} {w v : Nat} {x j : Job} :
    j ∈ setAt q w (q w ++ [x]) v ↔ j ∈ q v ∨ (v = w ∧ j = x) := by
  by_cases h : v = w
  · subst h; simp [setAt]
  · simp [setAt, h]

theorem lostInv_push {G D : Nat → Nat → Prop} {H : Nat → Prop} {s : Pymp} (h : LostInv G D H s) (w : Nat) (x : Option Nat)
    (hx : ∀ a, x = some a → a ∈ s.live) :
    LostInv (fun c v => G c v ∨ (c = s.jobs ∧ v = w)) D H
      { s with queue := setAt s.queue w (s.queue w ++ [⟨x, s.jobs⟩]), jobs := s.jobs + 1 } := by
  have hlt : ∀ c v, G c v → c ≠ s.jobs := fun c v g e => by have := h.given c v g; omega
  constructor
  · rintro c v (g | ⟨rfl, -⟩)
    · exact Nat.lt_succ_of_lt (h.given c v g)
    · exact Nat.lt_succ_self _
  · rintro c v v' (g | ⟨e, e1⟩) (g' | ⟨e', e1'⟩)
    · exact h.one c v v' g g'
    · exact absurd e' (hlt _ _ g)
    · exact absurd e (hlt _ _ g')
    · rw [e1, e1']
  · intro c hc
    by_cases e : c = s.jobs
    · exact ⟨w, .inr ⟨e, rfl⟩⟩
    · have hc : c < s.jobs + 1 := hc
      obtain ⟨v, g⟩ := h.all c (by omega)
      exact ⟨v, .inl g⟩
  · exact h.servers
  · exact h.liveLt
  · intro v j hj
    rcases mem_setAt_append.1 hj with hj | ⟨e, rfl⟩
    · exact .inl (h.queueG v j hj)
    · exact .inr ⟨rfl, e⟩
  · intro v j hj; exact .inl (h.runG v j hj)
  · intro v
    by_cases e : v = w
    · subst e
      simp only [setAt, if_true]
      rw [List.pairwise_append]
      refine ⟨h.sorted v, by simp, ?_⟩
      intro a ha b hb
      rw [List.mem_singleton] at hb
      subst hb
      exact h.given _ _ (h.queueG v a ha)
    · simpa [setAt, e] using h.sorted v
  · intro v j hj j' hj'
    rcases mem_setAt_append.1 hj' with hj' | ⟨e, rfl⟩
    · exact h.runLt v j hj j' hj'
    · exact h.given _ _ (h.runG v j hj)
  · intro v j hj a ha
    rcases mem_setAt_append.1 hj with hj | ⟨e, rfl⟩
    · exact h.queueA v j hj a ha
    · exact ⟨h.liveLt a (hx a ha), .inl (hx a ha)⟩
  · exact h.runA
  · intro v hv
    obtain ⟨h1, k, h2, h3⟩ := h.ended v hv
    refine ⟨h1, k, h2, fun j hj => ?_⟩
    rcases mem_setAt_append.1 hj with hj | ⟨e, rfl⟩
    · exact h3 j hj
    · exact h.given _ _ (h.dG v k h2)
  · intro v k hd; exact .inl (h.dG v k hd)
  · rintro c v (g | ⟨rfl, rfl⟩)
    · rcases h.cases c v g with h1 | h1 | ⟨j, h1, h2⟩ | h1
      · exact .inl h1
      · exact .inr (.inl h1)
      · exact .inr (.inr (.inl ⟨j, mem_setAt_append.2 (.inl h1), h2⟩))
      · exact .inr (.inr (.inr h1))
    · exact .inr (.inr (.inl ⟨_, mem_setAt_append.2 (.inr ⟨rfl, rfl⟩), rfl⟩))
  · intro c hc; exact h.bound c (by have : s.jobs + 1 ≤ c := hc; omega)
  · exact h.runN
  · rintro c v (g | ⟨rfl, -⟩) hr j hj
    · rcases mem_setAt_append.1 hj with hj | ⟨e, rfl⟩
      · exact h.resLt c v g hr j hj
      · exact h.given _ _ g
    · exact absurd (h.bound _ (Nat.le_refl _)) hr
  · intro v k hd
    rcases h.doom v k hd with ⟨j, h1, h2⟩ | h1
    · exact .inl ⟨j, mem_setAt_append.2 (.inl h1), h2⟩
    · exact .inr h1
  · intro v k hd
    refine ⟨?_, (h.doomR v k hd).2⟩
    rintro c (g | ⟨rfl, -⟩) hk
    · exact (h.doomR v k hd).1 c g hk
    · exact h.bound _ (Nat.le_refl _)
  · exact h.hit
  · exact h.exc

theorem lostInv_create {G D : Nat → Nat → Prop} {H : Nat → Prop} {s : Pymp} (h : LostInv G D H s) (w : Nat) :
    LostInv G D H { s with
        grabbed := setAt s.grabbed w true, live := s.actors :: s.live, servers := s.actors :: s.servers
        place := setAt s.place s.actors w, actors := s.actors + 1 } := by
  have hne : ∀ a, a ∉ s.live → a < s.actors → a ∉ s.actors :: s.live ∧ a < s.actors + 1 := fun a h1 h2 =>
    ⟨by simp only [List.mem_cons, not_or]; exact ⟨by omega, h1⟩, by omega⟩
  constructor
  · exact h.given
  · exact h.one
  · exact h.all
  · simp [h.servers]
  · intro a ha
    rcases List.mem_cons.1 ha with rfl | ha
    · exact Nat.lt_succ_self _
    · exact Nat.lt_succ_of_lt (h.liveLt a ha)
  · exact h.queueG
  · exact h.runG
  · exact h.sorted
  · exact h.runLt
  · intro v j hj a ha
    obtain ⟨h1, h2⟩ := h.queueA v j hj a ha
    exact ⟨Nat.lt_succ_of_lt h1, h2.imp (List.mem_cons_of_mem _) id⟩
  · intro v j hj a ha
    obtain ⟨h1, h2⟩ := h.runA v j hj a ha
    exact ⟨Nat.lt_succ_of_lt h1, h2.imp (List.mem_cons_of_mem _) id⟩
  · exact h.ended
  · exact h.dG
  · exact h.cases
  · exact h.bound
  · exact h.runN
  · exact h.resLt
  · intro v k hd
    rcases h.doom v k hd with ⟨j, h1, h2, a, h3, h4, h5⟩ | h1
    · exact .inl ⟨j, h1, h2, a, h3, hne a h4 h5⟩
    · exact .inr h1
  · exact h.doomR
  · intro c hc
    rcases h.hit c hc with h1 | ⟨v, j, h1, h2, a, h3, h4, h5⟩
    · exact .inl h1
    · exact .inr ⟨v, j, h1, h2, a, h3, hne a h4 h5⟩
  · exact h.exc

theorem lostInv_drop {G D : Nat → Nat → Prop} {H : Nat → Prop} {s : Pymp} (h : LostInv G D H s) (a : Nat) (g : Nat → Bool) :
    LostInv G (fun w c => D w c ∨ ∃ j ∈ s.queue w, j.actor = some a ∧ j.number = c)
      (fun c => H c ∨ ∃ w j, s.running w = some j ∧ j.actor = some a ∧ j.number = c)
      { s with live := s.live.filter (· ≠ a), servers := s.servers.filter (· ≠ a), grabbed := g } := by
  have hne : ∀ b, b ∉ s.live → b ∉ s.live.filter (· ≠ a) := fun b hb hm => hb (List.mem_filter.1 hm).1
  have hna : a ∉ s.live.filter (· ≠ a) := by simp
  constructor
  · exact h.given
  · exact h.one
  · exact h.all
  · simp [h.servers]
  · intro b hb; exact h.liveLt b (List.mem_filter.1 hb).1
  · exact h.queueG
  · exact h.runG
  · exact h.sorted
  · exact h.runLt
  · intro v j hj b hb
    obtain ⟨h1, h2⟩ := h.queueA v j hj b hb
    refine ⟨h1, ?_⟩
    by_cases e : b = a
    · subst e; exact .inr (.inr ⟨j, hj, hb, rfl⟩)
    · rcases h2 with h2 | h2
      · exact .inl (List.mem_filter.2 ⟨h2, by simpa using e⟩)
      · exact .inr (.inl h2)
  · intro v j hj b hb
    obtain ⟨h1, h2⟩ := h.runA v j hj b hb
    refine ⟨h1, ?_⟩
    by_cases e : b = a
    · subst e; exact .inr (.inr ⟨v, j, hj, hb, rfl⟩)
    · rcases h2 with h2 | h2
      · exact .inl (List.mem_filter.2 ⟨h2, by simpa using e⟩)
      · exact .inr (.inl h2)
  · intro v hv
    obtain ⟨h1, k, h2, h3⟩ := h.ended v hv
    exact ⟨h1, k, .inl h2, h3⟩
  · rintro v k (hd | ⟨j, hj, -, rfl⟩)
    · exact h.dG v k hd
    · exact h.queueG v j hj
  · intro c v hg
    rcases h.cases c v hg with h1 | h1 | h1 | ⟨h1, h2⟩
    · exact .inl h1
    · exact .inr (.inl h1)
    · exact .inr (.inr (.inl h1))
    · exact .inr (.inr (.inr ⟨h1, .inl h2⟩))
  · exact h.bound
  · exact h.runN
  · exact h.resLt
  · rintro v k (hd | ⟨j, hj, ha, rfl⟩)
    · rcases h.doom v k hd with ⟨j, h1, h2, b, h3, h4, h5⟩ | h1
      · exact .inl ⟨j, h1, h2, b, h3, hne b h4, h5⟩
      · exact .inr h1
    · exact .inl ⟨j, hj, rfl, a, ha, hna, (h.queueA v j hj a ha).1⟩
  · rintro v k (hd | ⟨j, hj, ha, rfl⟩)
    · exact h.doomR v k hd
    · refine ⟨fun c hg hk => ?_, fun j' hj' => h.runLt v j' hj' j hj⟩
      apply Classical.byContradiction
      intro hr
      have := h.resLt c v hg hr j hj
      omega
  · rintro c (hc | ⟨v, j, hj, ha, rfl⟩)
    · rcases h.hit c hc with h1 | ⟨v, j, h1, h2, b, h3, h4, h5⟩
      · exact .inl h1
      · exact .inr ⟨v, j, h1, h2, b, h3, hne b h4, h5⟩
    · exact .inr ⟨v, j, hj, rfl, a, ha, hna, (h.runA v j hj a ha).1⟩
  · intro c hc; exact .inl (h.exc c hc)

theorem mem_setAt_tail {q : Nat → List Job} {w v : Nat} {x j : Job} {l : List Job} (hq : q w = x :: l) (hj : j ∈ setAt q w l v) : j ∈ q v := by
  simp only [setAt] at hj
  split at hj
  · rename_i e; rw [e, hq]; exact List.mem_cons_of_mem _ hj
  · exact hj

theorem mem_setAt_head {q : Nat → List Job} {w v : Nat} {x j : Job} {l : List Job} (hq : q w = x :: l) (hj : j ∈ q v) :
    (v = w ∧ j = x) ∨ j ∈ setAt q w l v := by
  by_cases e : v = w
  · subst e
    rw [hq] at hj
    rcases List.mem_cons.1 hj with hj | hj
    · exact .inl ⟨rfl, hj⟩
    · right; simp [setAt, hj]
  · right; simp [setAt, e, hj]

theorem sorted_tail {q : Nat → List Job} {w : Nat} {x : Job} {l : List Job} (hq : q w = x :: l)
    (hs : ∀ v, (q v).Pairwise (·.number < ·.number)) (v : Nat) : (setAt q w l v).Pairwise (·.number < ·.number) := by
  by_cases e : v = w
  · subst e
    have := hs v
    rw [hq, List.pairwise_cons] at this
    simpa [setAt] using this.2
  · simpa [setAt, e] using hs v

theorem lostInv_take {G D : Nat → Nat → Prop} {H : Nat → Prop} {s : Pymp} (h : LostInv G D H s) (w : Nat) (x : Job) (l : List Job)
    (he : s.ended w = false) (hq : s.queue w = x :: l) (hr : s.running w = none) (hx : ∀ a, x.actor = some a → a ∈ s.live) :
    LostInv G D H { s with queue := setAt s.queue w l, running := setAt s.running w (some x) } := by
  have hxm : x ∈ s.queue w := by rw [hq]; simp
  have hsx : ∀ j ∈ l, x.number < j.number := by
    have := h.sorted w; rw [hq, List.pairwise_cons] at this; exact this.1
  have hrun : ∀ v j, setAt s.running w (some x) v = some j → (v = w ∧ j = x) ∨ (v ≠ w ∧ s.running v = some j) := by
    intro v j hj
    simp only [setAt] at hj
    split at hj
    · rename_i e; left; exact ⟨e, (Option.some.inj hj).symm⟩
    · rename_i e; right; exact ⟨e, hj⟩
  have hkeep : ∀ v j, s.running v = some j → setAt s.running w (some x) v = some j := by
    intro v j hj
    have : v ≠ w := by rintro rfl; rw [hr] at hj; cases hj
    simp [setAt, this, hj]
  have hl : ∀ j, j ∈ setAt s.queue w l w → j ∈ l := fun j hj => by simpa [setAt] using hj
  constructor
  · exact h.given
  · exact h.one
  · exact h.all
  · exact h.servers
  · exact h.liveLt
  · intro v j hj; exact h.queueG v j (mem_setAt_tail hq hj)
  · intro v j hj
    rcases hrun v j hj with ⟨rfl, rfl⟩ | ⟨-, hj⟩
    · exact h.queueG v j hxm
    · exact h.runG v j hj
  · exact sorted_tail hq h.sorted
  · intro v j hj j' hj'
    rcases hrun v j hj with ⟨rfl, rfl⟩ | ⟨-, hj⟩
    · exact hsx j' (hl j' hj')
    · exact h.runLt v j hj j' (mem_setAt_tail hq hj')
  · intro v j hj; exact h.queueA v j (mem_setAt_tail hq hj)
  · intro v j hj a ha
    rcases hrun v j hj with ⟨rfl, rfl⟩ | ⟨-, hj⟩
    · exact ⟨h.liveLt a (hx a ha), .inl (hx a ha)⟩
    · exact h.runA v j hj a ha
  · intro v hv
    have hv : s.ended v = true := hv
    have e : v ≠ w := by rintro rfl; rw [he] at hv; cases hv
    obtain ⟨h1, k, h2, h3⟩ := h.ended v hv
    exact ⟨by simp [setAt, e, h1], k, h2, fun j hj => h3 j (mem_setAt_tail hq hj)⟩
  · exact h.dG
  · intro c v hg
    rcases h.cases c v hg with h1 | ⟨j, h1, h2⟩ | ⟨j, h1, h2⟩ | h1
    · exact .inl h1
    · exact .inr (.inl ⟨j, hkeep v j h1, h2⟩)
    · rcases mem_setAt_head hq h1 with ⟨rfl, rfl⟩ | h1
      · exact .inr (.inl ⟨j, by simp [setAt], h2⟩)
      · exact .inr (.inr (.inl ⟨j, h1, h2⟩))
    · exact .inr (.inr (.inr h1))
  · exact h.bound
  · intro v j hj
    rcases hrun v j hj with ⟨rfl, rfl⟩ | ⟨-, hj⟩
    · apply Classical.byContradiction
      intro hn
      have := h.resLt _ _ (h.queueG v j hxm) hn j hxm
      omega
    · exact h.runN v j hj
  · intro c v hg hn j hj; exact h.resLt c v hg hn j (mem_setAt_tail hq hj)
  · intro v k hd
    rcases h.doom v k hd with ⟨j, h1, h2, a, h3, h4, h5⟩ | h1
    · rcases mem_setAt_head hq h1 with ⟨rfl, rfl⟩ | h1
      · exact absurd (hx a h3) h4
      · exact .inl ⟨j, h1, h2, a, h3, h4, h5⟩
    · exact .inr h1
  · intro v k hd
    refine ⟨(h.doomR v k hd).1, fun j hj => ?_⟩
    rcases hrun v j hj with ⟨rfl, rfl⟩ | ⟨-, hj⟩
    · rcases h.doom v k hd with ⟨j', h1, h2, a, h3, h4, h5⟩ | h1
      · rw [hq] at h1
        rcases List.mem_cons.1 h1 with rfl | h1
        · exact absurd (hx a h3) h4
        · rw [← h2]; exact hsx j' h1
      · rw [he] at h1; cases h1
    · exact (h.doomR v k hd).2 j hj
  · intro c hc
    rcases h.hit c hc with h1 | ⟨v, j, h1, h2⟩
    · exact .inl h1
    · exact .inr ⟨v, j, hkeep v j h1, h2⟩
  · exact h.exc

theorem lostInv_end {G D : Nat → Nat → Prop} {H : Nat → Prop} {s : Pymp} (h : LostInv G D H s) (w : Nat) (x : Job) (l : List Job) (a : Nat)
    (hq : s.queue w = x :: l) (hr : s.running w = none) (hx : x.actor = some a) (hx2 : a ∉ s.live) :
    LostInv G D H { s with queue := setAt s.queue w l, ended := setAt s.ended w true } := by
  have hxm : x ∈ s.queue w := by rw [hq]; simp
  have hsx : ∀ j ∈ l, x.number < j.number := by
    have := h.sorted w; rw [hq, List.pairwise_cons] at this; exact this.1
  have hl : ∀ j, j ∈ setAt s.queue w l w → j ∈ l := fun j hj => by simpa [setAt] using hj
  have hdx : D w x.number := by
    rcases (h.queueA w x hxm a hx).2 with h1 | h1
    · exact absurd h1 hx2
    · exact h1
  have hend : ∀ v, s.ended v = true → setAt s.ended w true v = true := by
    intro v hv
    simp only [setAt]
    split
    · rfl
    · exact hv
  constructor
  · exact h.given
  · exact h.one
  · exact h.all
  · exact h.servers
  · exact h.liveLt
  · intro v j hj; exact h.queueG v j (mem_setAt_tail hq hj)
  · exact h.runG
  · exact sorted_tail hq h.sorted
  · intro v j hj j' hj'; exact h.runLt v j hj j' (mem_setAt_tail hq hj')
  · intro v j hj; exact h.queueA v j (mem_setAt_tail hq hj)
  · exact h.runA
  · intro v hv
    by_cases e : v = w
    · subst e
      exact ⟨hr, x.number, hdx, fun j hj => hsx j (hl j hj)⟩
    · obtain ⟨h1, k, h2, h3⟩ := h.ended v (by simpa [setAt, e] using hv)
      exact ⟨h1, k, h2, fun j hj => h3 j (mem_setAt_tail hq hj)⟩
  · exact h.dG
  · intro c v hg
    rcases h.cases c v hg with h1 | h1 | ⟨j, h1, h2⟩ | ⟨h1, h2⟩
    · exact .inl h1
    · exact .inr (.inl h1)
    · rcases mem_setAt_head hq h1 with ⟨rfl, rfl⟩ | h1
      · exact .inr (.inr (.inr ⟨by simp [setAt], h2 ▸ hdx⟩))
      · exact .inr (.inr (.inl ⟨j, h1, h2⟩))
    · exact .inr (.inr (.inr ⟨hend v h1, h2⟩))
  · exact h.bound
  · exact h.runN
  · intro c v hg hn j hj; exact h.resLt c v hg hn j (mem_setAt_tail hq hj)
  · intro v k hd
    rcases h.doom v k hd with ⟨j, h1, h2⟩ | h1
    · rcases mem_setAt_head hq h1 with ⟨rfl, rfl⟩ | h1
      · exact .inr (by simp [setAt])
      · exact .inl ⟨j, h1, h2⟩
    · exact .inr (hend v h1)
  · exact h.doomR
  · exact h.hit
  · exact h.exc

theorem lostInv_finish {G D : Nat → Nat → Prop} {H : Nat → Prop} {s : Pymp} (h : LostInv G D H s) (w : Nat) (x : Job)
    (hr : s.running w = some x) :
    LostInv G D H { s with running := setAt s.running w none, result := setAt s.result x.number (some (s.outcome x)) } := by
  have hrun : ∀ v j, setAt s.running w none v = some j → v ≠ w ∧ s.running v = some j := by
    intro v j hj
    simp only [setAt] at hj
    split at hj
    · cases hj
    · rename_i e; exact ⟨e, hj⟩
  have hgx := h.runG w x hr
  have hres : ∀ c, c ≠ x.number → setAt s.result x.number (some (s.outcome x)) c = s.result c := fun c e => by simp [setAt, e]
  have hother : ∀ v j, v ≠ w → s.running v = some j → j.number ≠ x.number := by
    intro v j e hj en
    exact e (h.one _ _ _ (h.runG v j hj) (en ▸ hgx))
  constructor
  · exact h.given
  · exact h.one
  · exact h.all
  · exact h.servers
  · exact h.liveLt
  · exact h.queueG
  · intro v j hj; exact h.runG v j (hrun v j hj).2
  · exact h.sorted
  · intro v j hj; exact h.runLt v j (hrun v j hj).2
  · exact h.queueA
  · intro v j hj; exact h.runA v j (hrun v j hj).2
  · intro v hv
    obtain ⟨h1, h2⟩ := h.ended v hv
    refine ⟨?_, h2⟩
    simp only [setAt]
    split
    · rfl
    · exact h1
  · exact h.dG
  · intro c v hg
    by_cases e : c = x.number
    · left; simp [setAt, e]
    · rcases h.cases c v hg with h1 | ⟨j, h1, h2⟩ | h1 | h1
      · exact .inl (by simp only [hres c e]; exact h1)
      · have : v ≠ w := by
          rintro rfl
          rw [hr] at h1
          cases h1
          exact e h2.symm
        exact .inr (.inl ⟨j, by simp [setAt, this, h1], h2⟩)
      · exact .inr (.inr (.inl h1))
      · exact .inr (.inr (.inr h1))
  · intro c hc
    have := h.given _ _ hgx
    have hc : s.jobs ≤ c := hc
    show setAt s.result x.number (some (s.outcome x)) c = none
    rw [hres c (by omega)]
    exact h.bound c hc
  · intro v j hj
    obtain ⟨e, hj⟩ := hrun v j hj
    show setAt s.result x.number (some (s.outcome x)) j.number = none
    rw [hres _ (hother v j e hj)]
    exact h.runN v j hj
  · intro c v hg hn j hj
    by_cases e : c = x.number
    · subst e
      have := h.one _ _ _ hg hgx
      subst this
      exact h.runLt v x hr j hj
    · have hn : setAt s.result x.number (some (s.outcome x)) c ≠ none := hn
      rw [hres c e] at hn
      exact h.resLt c v hg hn j hj
  · exact h.doom
  · intro v k hd
    obtain ⟨h1, h2⟩ := h.doomR v k hd
    refine ⟨fun c hg hk => ?_, fun j hj => h2 j (hrun v j hj).2⟩
    show setAt s.result x.number (some (s.outcome x)) c = none
    rw [hres c ?_]
    · exact h1 c hg hk
    · rintro rfl
      have := h.one _ _ _ hg hgx
      subst this
      have := h2 x hr
      omega
  · intro c hc
    rcases h.hit c hc with h1 | ⟨v, j, h1, h2, a, h3, h4, h5⟩
    · left
      show setAt s.result x.number (some (s.outcome x)) c = _
      rw [hres c ?_]
      · exact h1
      · rintro rfl
        rw [h.runN w x hr] at h1
        cases h1
    · by_cases e : v = w
      · subst e
        rw [hr] at h1
        cases h1
        left
        show setAt s.result x.number (some (s.outcome x)) c = _
        simp [setAt, ← h2, Pymp.outcome, h3, h.servers, h4]
      · exact .inr ⟨v, j, by simp [setAt, e, h1], h2, a, h3, h4, h5⟩
  · intro c hc
    have hc : setAt s.result x.number (some (s.outcome x)) c = some .exception := hc
    by_cases e : c = x.number
    · subst e
      simp only [setAt, if_true, Option.some.injEq, Pymp.outcome] at hc
      split at hc
      · cases hc
      · rename_i a ha
        rw [h.servers] at hc
        split at hc
        · cases hc
        · rename_i hn
          exact (h.runA w x hr a ha).2.resolve_left hn
    · rw [hres c e] at hc
      exact h.exc c hc

theorem lostInv_run (n : Nat) (os : List POp) : ∀ s, (Pymp.init n).run os = some s →
    LostInv (GivenTo n os) (DroppedQueued n os) (DroppedRunning n os) s := by
  induction os using List.reverseRecOn with
  | nil =>
    intro s hs
    cases hs
    have hno : ∀ P, ¬ Happens n [] P := by
      rintro P ⟨pre, o, post, u, e, -⟩
      simp at e
    constructor <;> simp [Pymp.init, GivenTo, DroppedQueued, DroppedRunning, hno]
  | append_singleton os o ih =>
    intro t ht
    rw [pympLife_append] at ht
    obtain ⟨s, hs, ht⟩ := Option.bind_eq_some_iff.1 ht
    have h := ih s hs
    simp only [Pymp.run] at ht
    split at ht
    swap
    · cases ht
    rename_i s1 h1
    cases ht
    have hG : GivenTo n (os ++ [o]) = fun c w => GivenTo n os c w ∨ (s.jobs = c ∧ (o = .task w ∨ ∃ a, o = .call a ∧ s.place a = w)) := by
      funext c w; exact propext (happens_snoc hs)
    have hD : DroppedQueued n (os ++ [o]) = fun w c => DroppedQueued n os w c ∨ ∃ a, o = .drop a ∧ ∃ j ∈ s.queue w, j.actor = some a ∧ j.number = c := by
      funext w c; exact propext (happens_snoc hs)
    have hH : DroppedRunning n (os ++ [o]) = fun c => DroppedRunning n os c ∨ ∃ a, o = .drop a ∧ ∃ w j, s.running w = some j ∧ j.actor = some a ∧ j.number = c := by
      funext c; exact propext (happens_snoc hs)
    rw [hG, hD, hH]
    cases o with
    | create w =>
      simp only [reduceCtorEq, false_and, exists_false, or_false, and_false]
      simp only [Pymp.step] at h1; split at h1
      · cases h1; exact lostInv_create h w
      · cases h1
    | call a =>
      simp only [reduceCtorEq, false_and, exists_false, or_false, false_or, POp.call.injEq, exists_eq_left']
      simp only [Pymp.step] at h1; split at h1
      · rename_i ha
        cases h1
        have := lostInv_push h (s.place a) (some a) (by rintro b e; cases e; exact ha)
        simpa only [eq_comm] using this
      · cases h1
    | task w =>
      simp only [reduceCtorEq, false_and, exists_false, or_false, POp.task.injEq]
      simp only [Pymp.step] at h1; split at h1
      · cases h1
        have := lostInv_push h w none (by rintro b e; cases e)
        simpa only [eq_comm] using this
      · cases h1
    | drop a =>
      simp only [reduceCtorEq, false_and, exists_false, or_false, and_false, POp.drop.injEq, exists_eq_left']
      simp only [Pymp.step] at h1; split at h1
      · cases h1; exact lostInv_drop h a _
      · cases h1
    | take w =>
      simp only [reduceCtorEq, false_and, exists_false, or_false, and_false]
      simp only [Pymp.step] at h1
      split at h1
      · cases h1
      · rename_i hidle
        simp only [not_or, ne_eq, Classical.not_not, Bool.not_eq_true] at hidle
        split at h1
        · cases h1
        · rename_i x l hq
          split at h1
          · rename_i hx
            cases h1
            exact lostInv_take h w x l hidle.1 hq hidle.2 (by rw [hx]; rintro a e; cases e)
          · rename_i a hx
            split at h1
            · rename_i ha
              rw [h.servers] at ha
              cases h1
              exact lostInv_take h w x l hidle.1 hq hidle.2 (by rw [hx]; rintro b e; cases e; exact ha)
            · rename_i ha
              rw [h.servers] at ha
              cases h1
              exact lostInv_end h w x l a hq hidle.2 hx ha
    | finish w =>
      simp only [reduceCtorEq, false_and, exists_false, or_false, and_false]
      simp only [Pymp.step] at h1
      split at h1
      · cases h1
      · rename_i x hx
        cases h1
        exact lostInv_finish h w x hx

/-- C107 on multiprocessing, for all histories, when nothing is left to be done. A call or task has no result if and only if, on the worker it was
given to, the actor of a call was dropped while this call was waiting in the queue, and it is that call or was submitted after it; its result is an
exception if and only if its own actor was dropped while it was running; otherwise it has its value. Missing: the calls and tasks without values. -/
theorem C107_lost_partial (n : Nat) (os : List POp) (s : Pymp) (h : (Pymp.init n).run os = some s)
    (hidle : ∀ w, s.step (.take w) = none ∧ s.step (.finish w) = none) (c : Nat) (hc : c < s.jobs) :
    (s.result c = none ↔ ∃ w k, GivenTo n os c w ∧ DroppedQueued n os w k ∧ k ≤ c) ∧
    (s.result c = some .exception ↔ DroppedRunning n os c) ∧
    (s.result c = some .value ↔ ¬ DroppedRunning n os c ∧ ∀ w k, GivenTo n os c w → DroppedQueued n os w k → c < k) := by
  have hi := lostInv_run n os s h
  have hrun : ∀ w, s.running w = none := by
    intro w
    cases hr : s.running w with
    | none => rfl
    | some j => have := (hidle w).2; simp [Pymp.step, hr] at this
  have hq : ∀ w j, j ∈ s.queue w → s.ended w = true := by
    intro w j hj
    cases he : s.ended w with
    | true => rfl
    | false =>
      have h2 := (hidle w).1
      cases hq : s.queue w with
      | nil => rw [hq] at hj; simp at hj
      | cons j' l =>
        simp only [Pymp.step, he, hrun w, hq, Bool.false_eq_true, ne_eq, not_true_eq_false, or_self, if_false] at h2
        split at h2
        · simp at h2
        · split at h2 <;> simp at h2
  have e1 : s.result c = none ↔ ∃ w k, GivenTo n os c w ∧ DroppedQueued n os w k ∧ k ≤ c := by
    constructor
    · intro hn
      obtain ⟨w, hg⟩ := hi.all c hc
      rcases hi.cases c w hg with h1 | ⟨j, h1, -⟩ | ⟨j, h1, h2⟩ | ⟨-, h1⟩
      · exact absurd hn h1
      · rw [hrun w] at h1; cases h1
      · obtain ⟨-, k, h3, h4⟩ := hi.ended w (hq w j h1)
        have := h4 j h1
        exact ⟨w, k, hg, h3, by omega⟩
      · exact ⟨w, c, hg, h1, Nat.le_refl _⟩
    · rintro ⟨w, k, hg, hd, hk⟩
      exact (hi.doomR w k hd).1 c hg hk
  have e2 : s.result c = some .exception ↔ DroppedRunning n os c := by
    refine ⟨hi.exc c, fun hd => ?_⟩
    rcases hi.hit c hd with h1 | ⟨w, j, h1, -⟩
    · exact h1
    · rw [hrun w] at h1; cases h1
  refine ⟨e1, e2, ?_⟩
  rw [← e2]
  have e3 : (∀ w k, GivenTo n os c w → DroppedQueued n os w k → c < k) ↔ s.result c ≠ none := by
    rw [ne_eq, e1]
    constructor
    · rintro h ⟨w, k, h1, h2, h3⟩
      have := h w k h1 h2
      omega
    · intro h w k h1 h2
      apply Classical.byContradiction
      intro h3
      exact h ⟨w, k, h1, h2, by omega⟩
  rw [e3]
  cases hr : s.result c with
  | none => simp
  | some o => cases o <;> simp

/-- Two workers. Actor 0 is dropped while its call 0 runs and its call 1 waits; a task and a later actor on the same worker are lost with call 1. -/
def exPympLost : List POp := [.create 0, .create 1, .call 0, .call 0, .call 1, .take 0, .drop 0, .finish 0, .task 0, .create 0, .call 2, .take 0, .take 1,
  .finish 1]

example : ((Pymp.init 2).run exPympLost).map (fun s => (List.range s.jobs).map s.result) =
    some [some .exception, none, some .value, none, none] := by decide

example : DroppedQueued 2 exPympLost 0 1 ∧ GivenTo 2 exPympLost 3 0 ∧ GivenTo 2 exPympLost 4 0 := by
  refine ⟨⟨exPympLost.take 6, .drop 0, exPympLost.drop 7, _, rfl, rfl, 0, rfl, ⟨some 0, 1⟩, by decide⟩,
    ⟨exPympLost.take 8, .task 0, exPympLost.drop 9, _, rfl, rfl, by decide, .inl rfl⟩,
    ⟨exPympLost.take 10, .call 2, exPympLost.drop 11, _, rfl, rfl, by decide, .inr ⟨2, rfl, by decide⟩⟩⟩

end Verif.Props
