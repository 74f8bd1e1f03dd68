import Verif.Model.PympNested

namespace Verif.PympNested

theorem seek_free (g : List Bool) : ∀ fuel i r, seek g fuel i = some r → g[r.1]? = some false := by
  intro fuel
  induction fuel with
  | zero => intro i r h; simp [seek] at h
  | succ k ih =>
    intro i r h
    simp only [seek] at h
    split at h
    · rename_i hf; simp only [Option.some.injEq] at h; subst h; exact hf
    · exact ih _ _ h

/-- A free worker ahead is found. -/
theorem seek_some_of_ahead (g : List Bool) (w : Nat) (hw : g[w]? = some false) : ∀ fuel i, i ≤ w → w < i + fuel → ∃ r, seek g fuel i = some r := by
  intro fuel
  induction fuel with
  | zero => intro i h1 h2; omega
  | succ k ih =>
    intro i h1 h2
    have hl : w < g.length := (List.getElem?_eq_some_iff.1 hw).1
    simp only [seek]
    split
    · exact ⟨_, rfl⟩
    · rename_i hf
      have : i ≠ w := fun h => hf (h ▸ hw)
      rw [if_neg (by omega)]
      exact ih (i + 1) (by omega) (by omega)

/-- The whole circle is looked at. -/
theorem seek_some (g : List Bool) (w : Nat) (hw : g[w]? = some false) : ∀ fuel i, i < g.length → (w < i → w + g.length < i + fuel) → (i ≤ w → w < i + fuel) →
    ∃ r, seek g fuel i = some r := by
  intro fuel
  induction fuel with
  | zero => intro i _ h1 h2; omega
  | succ k ih =>
    intro i hi h1 h2
    have hl : w < g.length := (List.getElem?_eq_some_iff.1 hw).1
    simp only [seek]
    split
    · exact ⟨_, rfl⟩
    · rename_i hf
      have : i ≠ w := fun h => hf (h ▸ hw)
      split
      · exact seek_some_of_ahead g w hw k 0 (by omega) (by omega)
      · exact ih (i + 1) (by omega) (fun h => by omega) (fun h => by omega)

theorem seek_next (g : List Bool) : ∀ fuel i r, i < g.length → seek g fuel i = some r → r.2 < g.length := by
  intro fuel
  induction fuel with
  | zero => intro i r _ h; simp [seek] at h
  | succ k ih =>
    intro i r hi h
    simp only [seek] at h
    split at h
    · simp only [Option.some.injEq] at h; subst h; simp only; split <;> omega
    · exact ih _ _ (by split <;> omega) h

theorem submit_some {p : Pool} {w : Nat} (hw : p.grabbed[w]? = some false) (hn : p.next < p.grabbed.length) : ∃ r, p.submit = some r := by
  obtain ⟨r, hr⟩ := seek_some p.grabbed w hw p.grabbed.length p.next hn (fun h => by omega)
    (fun h => by have := (List.getElem?_eq_some_iff.1 hw).1; omega)
  exact ⟨_, by rw [Pool.submit, hr]; rfl⟩

theorem submit_free {p : Pool} {r : Nat × Pool} (h : p.submit = some r) : p.grabbed[r.1]? = some false ∧ r.2.grabbed = p.grabbed ∧
    (p.next < p.grabbed.length → r.2.next < p.grabbed.length) := by
  simp only [Pool.submit, Option.map_eq_some_iff] at h
  obtain ⟨x, hx, rfl⟩ := h
  exact ⟨seek_free _ _ _ _ hx, rfl, fun hn => seek_next _ _ _ _ hn hx⟩

theorem grab_some {p : Pool} {r : Nat × Pool} (h : p.grab = some r) : p.grabbed[r.1]? = some false ∧ r.2 = { p with grabbed := p.grabbed.set r.1 true } := by
  simp only [Pool.grab] at h
  split at h
  · rename_i hm
    simp only [Option.some.injEq] at h; subst h
    refine ⟨?_, rfl⟩
    have hl : p.grabbed.idxOf false < p.grabbed.length := List.idxOf_lt_length_of_mem hm
    simp only
    rw [List.getElem?_eq_getElem hl, List.getElem_idxOf]
  · simp at h

/-- The invariant of a history. -/
structure Inv (s : State) : Prop where
  main : ∀ x ∈ s.actors, s.main.grabbed[x.1]? = some true
  mainNext : s.main.next < s.main.grabbed.length ∨ s.main.grabbed = []
  own : ∀ x ∈ s.actors, x.2.grabbed[x.1]? = some false ∧ x.2.next < x.2.grabbed.length
  earlier : ∀ (a b : Nat) (x y : Nat × Pool), s.actors[a]? = some x → s.actors[b]? = some y → b < a → x.2.grabbed[y.1]? = some true
  place : ∀ w, ∀ it ∈ s.queues w, ∀ a body o, it.2 = .method a body o → ∃ x, s.actors[a]? = some x ∧ x.1 = w
  tail : ∀ w, ∀ it ∈ (s.queues w).tail, ∀ a body j, it.2 ≠ .method a body (some j)
  waits : ∀ w, ∀ it ∈ s.queues w, ∀ a body j, it.2 = .method a body (some j) → j ∈ s.done.map (·.1) ∨
    ∃ v, (j, .plain) ∈ s.queues v ∧ ∀ b y, s.actors[b]? = some y → y.1 = v → a ≤ b

theorem Inv.init (n : Nat) : Inv (State.init n) := by
  refine ⟨by simp [State.init], ?_, by simp [State.init], by simp [State.init], by simp [State.init], by simp [State.init], by simp [State.init]⟩
  cases n with
  | zero => right; simp [State.init]
  | succ n => left; simp [State.init]

theorem mem_add {s : State} {w : Nat} {j : Job} {v : Nat} {it : Nat × Job} : it ∈ (s.add w j).queues v ↔ it ∈ s.queues v ∨ (v = w ∧ it = (s.next, j)) := by
  simp only [State.add]
  split
  · rename_i h; simp [h]
  · rename_i h; simp [h]

theorem tail_add {s : State} {w : Nat} {j : Job} {v : Nat} {it : Nat × Job} (h : it ∈ ((s.add w j).queues v).tail) :
    it ∈ (s.queues v).tail ∨ (v = w ∧ it = (s.next, j)) := by
  simp only [State.add] at h
  split at h
  · rename_i hv
    cases hq : s.queues v with
    | nil => rw [hq] at h; simp at h
    | cons x l =>
      rw [hq] at h
      simp only [List.cons_append, List.tail_cons, List.mem_append, List.mem_singleton] at h ⊢
      exact h.imp id fun h => ⟨hv, h⟩
  · exact .inl h

theorem Inv.add {s : State} (h : Inv s) (w : Nat) (j : Job) (hj : ∀ a body o, j = .method a body o → o = none ∧ ∃ x, s.actors[a]? = some x ∧ x.1 = w) :
    Inv (s.add w j) := by
  refine ⟨h.main, h.mainNext, h.own, h.earlier, fun v it hit a body o hm => ?_, fun v it hit a body k hm => ?_, fun v it hit a body k hm => ?_⟩
  · rcases mem_add.1 hit with hit | ⟨rfl, rfl⟩
    · exact h.place v it hit a body o hm
    · exact (hj a body o hm).2
  · rcases tail_add hit with hit | ⟨rfl, rfl⟩
    · exact h.tail v it hit a body k hm
    · exact absurd (hj a body _ hm).1 (by simp)
  · rcases mem_add.1 hit with hit | ⟨rfl, rfl⟩
    · rcases h.waits v it hit a body k hm with hd | ⟨u, hu, hb⟩
      · exact .inl hd
      · exact .inr ⟨u, mem_add.2 (.inl hu), hb⟩
    · exact absurd (hj a body _ hm).1 (by simp)

theorem mem_finish {s : State} {w id : Nat} {ok : Bool} {v : Nat} {it : Nat × Job} (h : it ∈ (s.finish w id ok).queues v) : it ∈ s.queues v := by
  simp only [State.finish] at h
  split at h
  · exact List.mem_of_mem_tail h
  · exact h

theorem Inv.finish {s : State} (h : Inv s) (w id : Nat) (ok : Bool) (j : Job) (hq : (s.queues w).head? = some (id, j)) : Inv (s.finish w id ok) := by
  refine ⟨h.main, h.mainNext, h.own, h.earlier, fun v it hit => h.place v it (mem_finish hit), fun v it hit => ?_, fun v it hit a body k hm => ?_⟩
  · simp only [State.finish] at hit
    split at hit
    · exact h.tail v it (List.mem_of_mem_tail hit)
    · exact h.tail v it hit
  · rcases h.waits v it (mem_finish hit) a body k hm with hd | ⟨u, hu, hb⟩
    · left; simp only [State.finish, List.map_append]; exact List.mem_append_left _ hd
    · by_cases huw : u = w
      · subst huw
        cases hl : s.queues u with
        | nil => rw [hl] at hu; simp at hu
        | cons x l =>
          rw [hl] at hq hu
          simp only [List.head?_cons, Option.some.injEq] at hq
          rcases List.mem_cons.1 hu with hu | hu
          · left; rw [← hu] at hq; cases hq; simp [State.finish]
          · right; refine ⟨u, ?_, hb⟩; simp [State.finish, hl, hu]
      · right; refine ⟨u, ?_, hb⟩; simp [State.finish, huw, hu]

theorem Inv.head {s : State} (h : Inv s) (w id a : Nat) (b0 body : List Bool) (o o' : Option Nat)
    (hq : (s.queues w).head? = some (id, .method a b0 o))
    (ho : ∀ j, o' = some j → ∃ v, (j, .plain) ∈ s.queues v ∧ ∀ b y, s.actors[b]? = some y → y.1 = v → a ≤ b) :
    Inv (s.head w (id, .method a body o')) := by
  have hmem : (id, .method a b0 o) ∈ s.queues w := List.mem_of_mem_head? hq
  refine ⟨h.main, h.mainNext, h.own, h.earlier, fun v it hit a' body' o' hm => ?_, fun v it hit => ?_, fun v it hit a' body' k hm => ?_⟩
  · simp only [State.head] at hit
    split at hit
    · rename_i hv
      subst hv
      rcases List.mem_cons.1 hit with rfl | hit
      · cases hm; exact h.place v _ hmem _ _ _ rfl
      · exact h.place v it (List.mem_of_mem_tail hit) _ _ _ hm
    · exact h.place v it hit _ _ _ hm
  · simp only [State.head] at hit
    split at hit
    · exact h.tail v it hit
    · exact h.tail v it hit
  · have hkey : k ∈ s.done.map (·.1) ∨ ∃ v, (k, .plain) ∈ s.queues v ∧ ∀ b y, s.actors[b]? = some y → y.1 = v → a' ≤ b := by
      simp only [State.head] at hit
      split at hit
      · rcases List.mem_cons.1 hit with rfl | hit
        · cases hm; exact .inr (ho k rfl)
        · exact h.waits v it (List.mem_of_mem_tail hit) a' body' k hm
      · exact h.waits v it hit a' body' k hm
    rcases hkey with hd | ⟨u, hu, hb⟩
    · exact .inl hd
    · refine .inr ⟨u, ?_, hb⟩
      simp only [State.head]
      split
      · rename_i huw
        subst huw
        cases hl : s.queues u with
        | nil => rw [hl] at hu; simp at hu
        | cons x l =>
          rw [hl] at hq hu
          simp only [List.head?_cons, Option.some.injEq] at hq
          rcases List.mem_cons.1 hu with hu | hu
          · rw [← hu] at hq; cases hq
          · simp [hu]
      · exact hu

/-- The instance of an actor's process moves its counter. -/
theorem Inv.set {s : State} (h : Inv s) (a : Nat) (x : Nat × Pool) (p : Pool) (hx : s.actors[a]? = some x) (hg : p.grabbed = x.2.grabbed)
    (hn : p.next < p.grabbed.length) : Inv { s with actors := s.actors.set a (x.1, p) } := by
  have hal : a < s.actors.length := (List.getElem?_eq_some_iff.1 hx).1
  have look : ∀ (b : Nat) (y : Nat × Pool), (s.actors.set a (x.1, p))[b]? = some y → ∃ z, s.actors[b]? = some z ∧ z.1 = y.1 ∧ z.2.grabbed = y.2.grabbed := by
    intro b y hy
    rw [List.getElem?_set] at hy
    split at hy
    · rename_i hab; subst hab
      simp only [Option.ite_none_right_eq_some, Option.some.injEq] at hy
      obtain ⟨_, rfl⟩ := hy
      exact ⟨x, hx, rfl, hg.symm⟩
    · exact ⟨y, hy, rfl, rfl⟩
  have back : ∀ (b : Nat) (z : Nat × Pool), s.actors[b]? = some z → ∃ y, (s.actors.set a (x.1, p))[b]? = some y ∧ y.1 = z.1 := by
    intro b z hz
    rw [List.getElem?_set]
    by_cases hab : a = b
    · subst hab; rw [hx] at hz; cases hz; rw [if_pos rfl, if_pos hal]; exact ⟨_, rfl, rfl⟩
    · rw [if_neg hab]; exact ⟨z, hz, rfl⟩
  refine ⟨fun y hy => ?_, h.mainNext, fun y hy => ?_, fun b c y z hy hz hbc => ?_, fun w it hit b body o hm => ?_, h.tail, fun w it hit b body j hm => ?_⟩
  · obtain ⟨b, hb⟩ := List.mem_iff_getElem?.1 hy
    obtain ⟨z, hz, h1, _⟩ := look b y hb
    rw [← h1]; exact h.main z (List.mem_iff_getElem?.2 ⟨b, hz⟩)
  · rcases List.mem_or_eq_of_mem_set hy with hy | rfl
    · exact h.own y hy
    · refine ⟨?_, hn⟩
      simp only [hg]; exact (h.own x (List.mem_iff_getElem?.2 ⟨a, hx⟩)).1
  · obtain ⟨y', hy', _, h2⟩ := look b y hy
    obtain ⟨z', hz', h3, _⟩ := look c z hz
    rw [← h2, ← h3]; exact h.earlier b c y' z' hy' hz' hbc
  · obtain ⟨y, hy, hw⟩ := h.place w it hit b body o hm
    obtain ⟨z, hz, h1⟩ := back b y hy
    exact ⟨z, hz, h1.trans hw⟩
  · rcases h.waits w it hit b body j hm with hd | ⟨u, hu, hb⟩
    · exact .inl hd
    · refine .inr ⟨u, hu, fun c y hy hyu => ?_⟩
      obtain ⟨z, hz, h1, _⟩ := look c y hy
      exact hb c z hz (h1.trans hyu)

/-- A call goes to no actor made before the one whose instance is asked. -/
theorem Inv.later {s : State} (h : Inv s) {a : Nat} {x : Nat × Pool} {r : Nat × Pool} (hx : s.actors[a]? = some x) (hr : x.2.submit = some r)
    (b : Nat) (y : Nat × Pool) (hy : s.actors[b]? = some y) (hyr : y.1 = r.1) : a ≤ b := by
  rcases Nat.lt_or_ge b a with hlt | hge
  · have h1 := h.earlier a b x y hx hy hlt
    rw [hyr, (submit_free hr).1] at h1
    cases h1
  · exact hge

theorem head_add_comm (s : State) (w i id a : Nat) (body : List Bool) (o o' : Option Nat) (hne : s.queues w ≠ []) (j : Job) :
    (s.head w (id, .method a body o)).add i j = ((s.head w (id, .method a body o')).add i j).head w (id, .method a body o) := by
  simp only [State.head, State.add, State.mk.injEq, and_true]
  funext v
  by_cases hv : v = w <;> by_cases hi : v = i <;> simp [hv, hi]
  all_goals (try subst hv) <;> simp_all

theorem step_inv {s s' : State} {act : Act} (h : Inv s) (hs : s.step act = some s') : Inv s' := by
  cases act with
  | create =>
    simp only [State.step] at hs
    split at hs
    · simp only [Option.some.injEq] at hs; exact hs ▸ h
    · rename_i w p hg
      simp only [Option.some.injEq] at hs; subst hs
      obtain ⟨hf, hp⟩ := grab_some hg
      simp only at hf hp
      have hwl : w < s.main.grabbed.length := (List.getElem?_eq_some_iff.1 hf).1
      have hne : ∀ x ∈ s.actors, x.1 ≠ w := fun x hx hxw => by have := h.main x hx; rw [hxw, hf] at this; cases this
      have hmn : s.main.next < s.main.grabbed.length := h.mainNext.resolve_right fun h0 => by rw [h0] at hwl; simp at hwl
      have look : ∀ (b : Nat) (y : Nat × Pool), (s.actors ++ [(w, s.main)])[b]? = some y →
          s.actors[b]? = some y ∨ (b = s.actors.length ∧ y = (w, s.main)) := by
        intro b y hy
        rcases Nat.lt_or_ge b s.actors.length with hb | hb
        · rw [List.getElem?_append_left hb] at hy; exact .inl hy
        · rw [List.getElem?_append_right hb] at hy
          right
          have : b - s.actors.length = 0 := by
            rcases Nat.eq_zero_or_pos (b - s.actors.length) with h0 | h0
            · exact h0
            · rw [List.getElem?_eq_none (by simp; omega)] at hy; cases hy
          rw [this] at hy
          simp only [List.getElem?_cons_zero, Option.some.injEq] at hy
          exact ⟨by omega, hy.symm⟩
      have old : ∀ (b : Nat) (y : Nat × Pool), s.actors[b]? = some y → (s.actors ++ [(w, s.main)])[b]? = some y := by
        intro b y hy
        rw [List.getElem?_append_left (List.getElem?_eq_some_iff.1 hy).1]; exact hy
      have lt : ∀ (b : Nat) (y : Nat × Pool), s.actors[b]? = some y → b < s.actors.length := fun b y hy => (List.getElem?_eq_some_iff.1 hy).1
      refine ⟨fun x hx => ?_, ?_, fun x hx => ?_, fun a b x y hx hy hab => ?_, fun v it hit a body o hm => ?_, h.tail, fun v it hit a body j hm => ?_⟩
      · simp only [hp]
        rcases List.mem_append.1 hx with hx | hx
        · rw [List.getElem?_set_ne (fun hh => hne x hx hh.symm)]; exact h.main x hx
        · simp only [List.mem_singleton] at hx; subst hx; simp [hwl]
      · left; simp only [hp, List.length_set]; exact hmn
      · rcases List.mem_append.1 hx with hx | hx
        · exact h.own x hx
        · simp only [List.mem_singleton] at hx; subst hx; exact ⟨hf, hmn⟩
      · rcases look a x hx with hx | ⟨ha, rfl⟩
        · rcases look b y hy with hy | ⟨hb, rfl⟩
          · exact h.earlier a b x y hx hy hab
          · have := lt a x hx; omega
        · rcases look b y hy with hy | ⟨hb, rfl⟩
          · exact h.main y (List.mem_iff_getElem?.2 ⟨b, hy⟩)
          · omega
      · obtain ⟨x, hx, hw⟩ := h.place v it hit a body o hm
        exact ⟨x, old a x hx, hw⟩
      · rcases h.waits v it hit a body j hm with hd | ⟨u, hu, hb⟩
        · exact .inl hd
        · refine .inr ⟨u, hu, fun b y hy hyu => ?_⟩
          rcases look b y hy with hy | ⟨hb', rfl⟩
          · exact hb b y hy hyu
          · obtain ⟨x, hx, _⟩ := h.place v it hit a body _ hm
            have := lt a x hx; omega
  | call nested =>
    simp only [State.step] at hs
    split at hs
    · simp only [Option.some.injEq] at hs; exact hs ▸ h
    · rename_i w p hg
      simp only [Option.some.injEq] at hs; subst hs
      obtain ⟨hf, hgr, hn⟩ := submit_free hg
      simp only at hf hgr hn
      have h1 : Inv { s with main := p } := by
        refine ⟨fun x hx => ?_, ?_, h.own, h.earlier, h.place, h.tail, h.waits⟩
        · simp only [hgr]; exact h.main x hx
        · left; simp only [hgr]; exact hn (h.mainNext.resolve_right fun h0 => by rw [h0] at hf; simp at hf)
      apply h1.add
      intro a body o hj; split at hj <;> cases hj
  | method a body =>
    simp only [State.step] at hs
    split at hs
    · simp at hs
    · rename_i x hx
      simp only [Option.some.injEq] at hs; subst hs
      apply h.add
      intro a' body' o hj; cases hj; exact ⟨rfl, x, hx, rfl⟩
  | work w =>
    simp only [State.step] at hs
    split at hs
    · simp at hs
    · rename_i id _ hq; simp only [Option.some.injEq] at hs; subst hs; exact h.finish w id true .plain (by rw [hq]; rfl)
    · rename_i id _ hq; simp only [Option.some.injEq] at hs; subst hs; exact h.finish w id false .nested (by rw [hq]; rfl)
    · rename_i id a body j _ hq
      split at hs
      · simp only [Option.some.injEq] at hs; subst hs
        exact h.head w id a body body (some j) none (by rw [hq]; rfl) (by simp)
      · simp at hs
    · rename_i id a _ hq; simp only [Option.some.injEq] at hs; subst hs; exact h.finish w id true (.method a [] none) (by rw [hq]; rfl)
    · rename_i id a g body rest hq
      split at hs
      · simp at hs
      · rename_i x hx
        split at hs
        · simp only [Option.some.injEq] at hs; subst hs; exact h.finish w id false (.method a (g :: body) none) (by rw [hq]; rfl)
        · rename_i i p hsub
          simp only [Option.some.injEq] at hs; subst hs
          obtain ⟨_, hgr, hn⟩ := submit_free hsub
          simp only at hgr hn
          have hown := h.own x (List.mem_iff_getElem?.2 ⟨a, hx⟩)
          have h1 := h.set a x p hx hgr (by rw [hgr]; exact hn hown.2)
          have hne : ({ s with actors := s.actors.set a (x.1, p) } : State).queues w ≠ [] := by simp [hq]
          have h2 := h1.head w id a (g :: body) body none none (by simp [hq]) (by simp)
          have h3 := h2.add i .plain (by intro a' b' o hh; cases hh)
          rw [head_add_comm _ w i id a body _ none hne]
          refine h3.head w id a body body none _ ?_ ?_
          · simp only [State.add, State.head]; split <;> simp
          · intro j hj
            split at hj
            · simp only [Option.some.injEq] at hj; subst hj
              refine ⟨i, mem_add.2 (.inr ⟨rfl, rfl⟩), fun b y hy hyi => ?_⟩
              have hy' : (s.actors.set a (x.1, p))[b]? = some y := hy
              rw [List.getElem?_set] at hy'
              split at hy'
              · omega
              · exact h.later hx hsub b y hy' hyi
            · simp at hj

theorem run_inv {as : List Act} : ∀ {s s' : State}, Inv s → s.run as = some s' → Inv s' := by
  induction as with
  | nil => intro s s' h hr; simp only [State.run, Option.some.injEq] at hr; exact hr ▸ h
  | cons o os ih =>
    intro s s' h hr
    simp only [State.run, Option.bind_eq_some_iff] at hr
    obtain ⟨u, hu, hr⟩ := hr
    exact ih (step_inv h hu) hr

/-- The numbers of calls in a queue. -/
def ids (s : State) (w : Nat) : List Nat := (s.queues w).map (·.1)

/-- Every call is in one place. -/
structure Uniq (s : State) : Prop where
  lt : ∀ w, ∀ j ∈ ids s w, j < s.next
  doneLt : ∀ j ∈ s.done.map (·.1), j < s.next
  nodup : ∀ w, (ids s w).Nodup
  one : ∀ v w, ∀ j, j ∈ ids s v → j ∈ ids s w → v = w
  done : ∀ w, ∀ j ∈ ids s w, j ∉ s.done.map (·.1)

theorem Uniq.init (n : Nat) : Uniq (State.init n) := by
  refine ⟨?_, ?_, ?_, ?_, ?_⟩ <;> simp [State.init, ids]

theorem ids_add (s : State) (w v : Nat) (j : Job) : ids (s.add w j) v = if v = w then ids s v ++ [s.next] else ids s v := by
  simp only [ids, State.add]; split <;> simp

theorem Uniq.add {s : State} (h : Uniq s) (w : Nat) (j : Job) : Uniq (s.add w j) := by
  have hmem : ∀ v k, k ∈ ids (s.add w j) v → k ∈ ids s v ∨ (v = w ∧ k = s.next) := by
    intro v k hk; rw [ids_add] at hk
    split at hk
    · rename_i hv; simp only [List.mem_append, List.mem_singleton] at hk; exact hk.imp id fun hk => ⟨hv, hk⟩
    · exact .inl hk
  have hnext : (s.add w j).next = s.next + 1 := rfl
  refine ⟨fun v k hk => ?_, fun k hk => ?_, fun v => ?_, fun v u k hv hu => ?_, fun v k hk => ?_⟩
  · rcases hmem v k hk with hk | ⟨_, rfl⟩
    · have := h.lt v k hk; omega
    · omega
  · have := h.doneLt k hk; omega
  · rw [ids_add]
    split
    · rw [List.nodup_append]
      refine ⟨h.nodup v, by simp, ?_⟩
      intro a ha b hb hab; simp only [List.mem_singleton] at hb; subst hb; subst hab
      have := h.lt v _ ha; omega
    · exact h.nodup v
  · rcases hmem v k hv with hv' | ⟨rfl, rfl⟩
    · rcases hmem u k hu with hu' | ⟨rfl, rfl⟩
      · exact h.one v u k hv' hu'
      · have := h.lt _ _ hv'; omega
    · rcases hmem u _ hu with hu' | ⟨rfl, _⟩
      · have := h.lt _ _ hu'; omega
      · rfl
  · rcases hmem v k hk with hk | ⟨_, rfl⟩
    · exact h.done v k hk
    · intro hd; have := h.doneLt _ hd; omega

theorem ids_finish (s : State) (w v id : Nat) (ok : Bool) : ids (s.finish w id ok) v = if v = w then (ids s v).tail else ids s v := by
  simp only [ids, State.finish]; split <;> simp [List.map_tail]

theorem Uniq.finish {s : State} (h : Uniq s) (w id : Nat) (ok : Bool) (hq : (ids s w).head? = some id) : Uniq (s.finish w id ok) := by
  have hmem : ∀ v k, k ∈ ids (s.finish w id ok) v → k ∈ ids s v ∧ k ≠ id := by
    intro v k hk; rw [ids_finish] at hk
    cases hl : ids s w with
    | nil => rw [hl] at hq; simp at hq
    | cons x l =>
      have hx : x = id := by rw [hl] at hq; simpa using hq
      split at hk
      · rename_i hv
        subst hv
        refine ⟨List.mem_of_mem_tail hk, ?_⟩
        have := h.nodup v
        rw [hl] at this hk
        rintro rfl
        subst hx
        exact (List.nodup_cons.1 this).1 hk
      · rename_i hv
        refine ⟨hk, ?_⟩
        rintro rfl
        exact hv (h.one v w _ hk (by rw [hl, hx]; simp))
  have hid : id ∈ ids s w := List.mem_of_mem_head? hq
  refine ⟨fun v k hk => h.lt v k (hmem v k hk).1, fun k hk => ?_, fun v => ?_, fun v u k hv hu => h.one v u k (hmem v k hv).1 (hmem u k hu).1, fun v k hk => ?_⟩
  · simp only [State.finish, List.map_append, List.mem_append] at hk
    rcases hk with hk | hk
    · exact h.doneLt k hk
    · simp only [List.map_cons, List.map_nil, List.mem_singleton] at hk; subst hk; exact h.lt w _ hid
  · rw [ids_finish]; split
    · exact (h.nodup v).sublist (List.tail_sublist _)
    · exact h.nodup v
  · obtain ⟨h1, h2⟩ := hmem v k hk
    simp only [State.finish, List.map_append, List.mem_append]
    rintro (hd | hd)
    · exact h.done v k h1 hd
    · simp only [List.map_cons, List.map_nil, List.mem_singleton] at hd; exact h2 hd

theorem Uniq.of_eq {s s' : State} (h : Uniq s) (hi : ∀ w, ids s' w = ids s w) (hd : s'.done = s.done) (hn : s'.next = s.next) : Uniq s' := by
  refine ⟨fun w j hj => ?_, fun j hj => ?_, fun w => ?_, fun v w j hv hw => ?_, fun w j hj => ?_⟩
  · rw [hn]; rw [hi] at hj; exact h.lt w j hj
  · rw [hn]; rw [hd] at hj; exact h.doneLt j hj
  · rw [hi]; exact h.nodup w
  · rw [hi] at hv hw; exact h.one v w j hv hw
  · rw [hd]; rw [hi] at hj; exact h.done w j hj

theorem ids_head (s : State) (w v id : Nat) (j : Job) (hq : (ids s w).head? = some id) : ids (s.head w (id, j)) v = ids s v := by
  simp only [ids, State.head]
  split
  · rename_i hv; subst hv
    simp only [ids] at hq
    cases hl : s.queues v with
    | nil => rw [hl] at hq; simp at hq
    | cons x l => rw [hl] at hq; simp at hq; simp [hq]
  · rfl

/-- What a step does to the queues, the finished calls and the counter. -/
theorem step_uniq {s s' : State} {act : Act} (h : Uniq s) (hs : s.step act = some s') : Uniq s' := by
  cases act with
  | create =>
    simp only [State.step] at hs
    split at hs
    · simp only [Option.some.injEq] at hs; exact hs ▸ h
    · simp only [Option.some.injEq] at hs; subst hs; exact h.of_eq (fun _ => rfl) rfl rfl
  | call nested =>
    simp only [State.step] at hs
    split at hs
    · simp only [Option.some.injEq] at hs; exact hs ▸ h
    · simp only [Option.some.injEq] at hs; subst hs
      apply Uniq.add
      exact h.of_eq (fun _ => rfl) rfl rfl
  | method a body =>
    simp only [State.step] at hs
    split at hs
    · simp at hs
    · simp only [Option.some.injEq] at hs; subst hs; exact h.add _ _
  | work w =>
    simp only [State.step] at hs
    split at hs
    · simp at hs
    · rename_i hq; simp only [Option.some.injEq] at hs; subst hs; exact h.finish w _ _ (by simp [ids, hq])
    · rename_i hq; simp only [Option.some.injEq] at hs; subst hs; exact h.finish w _ _ (by simp [ids, hq])
    · rename_i hq
      split at hs
      · simp only [Option.some.injEq] at hs; subst hs
        exact h.of_eq (fun v => ids_head _ _ _ _ _ (by simp [ids, hq])) rfl rfl
      · simp at hs
    · rename_i hq; simp only [Option.some.injEq] at hs; subst hs; exact h.finish w _ _ (by simp [ids, hq])
    · rename_i hq
      split at hs
      · simp at hs
      · split at hs
        · simp only [Option.some.injEq] at hs; subst hs; exact h.finish w _ _ (by simp [ids, hq])
        · simp only [Option.some.injEq] at hs; subst hs
          apply Uniq.add
          refine h.of_eq (fun v => ?_) rfl rfl
          rw [ids_head _ _ _ _ _ (by simp [ids, hq])]; rfl

theorem run_uniq {as : List Act} : ∀ {s s' : State}, Uniq s → s.run as = some s' → Uniq s' := by
  induction as with
  | nil => intro s s' h hr; simp only [State.run, Option.some.injEq] at hr; exact hr ▸ h
  | cons o os ih =>
    intro s s' h hr
    simp only [State.run, Option.bind_eq_some_iff] at hr
    obtain ⟨u, hu, hr⟩ := hr
    exact ih (step_uniq h hu) hr

/-- A worker executes a method that waits for a call in its own queue. -/
structure Own (s : State) (w : Nat) (id a : Nat) (body : List Bool) (j : Nat) : Prop where
  head : (s.queues w).head? = some (id, .method a body (some j))
  done : j ∉ s.done.map (·.1)
  other : ∀ v, v ≠ w → j ∉ ids s v
  lt : j < s.next

theorem Own.add {s : State} {w id a : Nat} {body : List Bool} {j : Nat} (h : Own s w id a body j) (v : Nat) (x : Job) : Own (s.add v x) w id a body j := by
  refine ⟨?_, h.done, fun u hu => ?_, Nat.lt_succ_of_lt h.lt⟩
  · have := h.head
    simp only [State.add]; split
    · rw [List.head?_append, this]; rfl
    · exact this
  · rw [ids_add]; split
    · simp only [List.mem_append, List.mem_singleton]
      rintro (hh | hh)
      · exact h.other u hu hh
      · have := h.lt; omega
    · exact h.other u hu

theorem Own.finish {s : State} {w id a : Nat} {body : List Bool} {j : Nat} (h : Own s w id a body j) (v k : Nat) (ok : Bool) (hv : v ≠ w)
    (hk : (ids s v).head? = some k) : Own (s.finish v k ok) w id a body j := by
  have hkv : k ∈ ids s v := List.mem_of_mem_head? hk
  refine ⟨?_, ?_, fun u hu => ?_, h.lt⟩
  · simp only [State.finish]; rw [if_neg (fun hh => hv hh.symm)]; exact h.head
  · simp only [State.finish, List.map_append, List.mem_append]
    rintro (hd | hd)
    · exact h.done hd
    · simp only [List.map_cons, List.map_nil, List.mem_singleton] at hd; subst hd; exact h.other v hv hkv
  · rw [ids_finish]; split
    · exact fun hh => h.other u hu (List.mem_of_mem_tail hh)
    · exact h.other u hu

theorem Own.headq {s : State} {w id a : Nat} {body : List Bool} {j : Nat} (h : Own s w id a body j) (v k : Nat) (x : Job) (hv : v ≠ w)
    (hk : (ids s v).head? = some k) : Own (s.head v (k, x)) w id a body j := by
  refine ⟨?_, h.done, fun u hu => ?_, h.lt⟩
  · simp only [State.head]; rw [if_neg (fun hh => hv hh.symm)]; exact h.head
  · rw [ids_head _ _ _ _ _ hk]; exact h.other u hu

theorem step_own {s s' : State} {act : Act} {w id a : Nat} {body : List Bool} {j : Nat} (h : Own s w id a body j) (hs : s.step act = some s') :
    Own s' w id a body j := by
  cases act with
  | create =>
    simp only [State.step] at hs
    split at hs
    · simp only [Option.some.injEq] at hs; exact hs ▸ h
    · simp only [Option.some.injEq] at hs; subst hs; exact ⟨h.head, h.done, h.other, h.lt⟩
  | call nested =>
    simp only [State.step] at hs
    split at hs
    · simp only [Option.some.injEq] at hs; exact hs ▸ h
    · simp only [Option.some.injEq] at hs; subst hs
      apply Own.add
      exact ⟨h.head, h.done, h.other, h.lt⟩
  | method b body' =>
    simp only [State.step] at hs
    split at hs
    · simp at hs
    · simp only [Option.some.injEq] at hs; subst hs; exact h.add _ _
  | work v =>
    simp only [State.step] at hs
    have key : ∀ k y l, s.queues v = (k, y) :: l → (∀ b c i, y = Job.method b c (some i) → i ∈ s.done.map (·.1)) → v ≠ w := by
      intro k y l hq hy hv
      subst hv
      have := h.head
      rw [hq] at this
      simp only [List.head?_cons, Option.some.injEq, Prod.mk.injEq] at this
      exact h.done (hy _ _ _ this.2)
    split at hs
    · simp at hs
    · rename_i hq; simp only [Option.some.injEq] at hs; subst hs
      exact h.finish v _ _ (key _ _ _ hq (by simp)) (by simp [ids, hq])
    · rename_i hq; simp only [Option.some.injEq] at hs; subst hs
      exact h.finish v _ _ (key _ _ _ hq (by simp)) (by simp [ids, hq])
    · rename_i hq
      split at hs
      · rename_i hd
        simp only [Option.some.injEq] at hs; subst hs
        exact h.headq v _ _ (key _ _ _ hq (by intro b c i hi; cases hi; exact hd)) (by simp [ids, hq])
      · simp at hs
    · rename_i hq; simp only [Option.some.injEq] at hs; subst hs
      exact h.finish v _ _ (key _ _ _ hq (by simp)) (by simp [ids, hq])
    · rename_i hq
      split at hs
      · simp at hs
      · split at hs
        · simp only [Option.some.injEq] at hs; subst hs; exact h.finish v _ _ (key _ _ _ hq (by simp)) (by simp [ids, hq])
        · simp only [Option.some.injEq] at hs; subst hs
          apply Own.add
          refine Own.headq ?_ v _ _ (key _ _ _ hq (by simp)) ?_
          · exact ⟨h.head, h.done, h.other, h.lt⟩
          · simp [ids, hq]

theorem run_own {as : List Act} {w id a : Nat} {body : List Bool} {j : Nat} : ∀ {s s' : State}, Own s w id a body j → s.run as = some s' →
    Own s' w id a body j := by
  induction as with
  | nil => intro s s' h hr; simp only [State.run, Option.some.injEq] at hr; exact hr ▸ h
  | cons o os ih =>
    intro s s' h hr
    simp only [State.run, Option.bind_eq_some_iff] at hr
    obtain ⟨u, hu, hr⟩ := hr
    exact ih (step_own h hu) hr

/-- Nothing leaves the queue of such a worker. -/
theorem step_own_prefix {s s' : State} {act : Act} {w id a : Nat} {body : List Bool} {j : Nat} (h : Own s w id a body j) (hs : s.step act = some s') :
    ∃ l, s'.queues w = s.queues w ++ l := by
  have hadd : ∀ (q : State) v x, q.queues w = s.queues w → ∃ l, (q.add v x).queues w = s.queues w ++ l := by
    intro q v x hqs
    simp only [State.add, hqs]; split
    · exact ⟨_, rfl⟩
    · exact ⟨[], by simp⟩
  cases act with
  | create =>
    simp only [State.step] at hs
    split at hs <;> (simp only [Option.some.injEq] at hs; subst hs; exact ⟨[], by simp⟩)
  | call nested =>
    simp only [State.step] at hs
    split at hs
    · simp only [Option.some.injEq] at hs; subst hs; exact ⟨[], by simp⟩
    · simp only [Option.some.injEq] at hs; subst hs; exact hadd _ _ _ rfl
  | method c body' =>
    simp only [State.step] at hs
    split at hs
    · simp at hs
    · simp only [Option.some.injEq] at hs; subst hs; exact hadd _ _ _ rfl
  | work v =>
    have hv : v ≠ w := by
      rintro rfl
      cases hl : s.queues v with
      | nil => have := h.head; rw [hl] at this; simp at this
      | cons y l =>
        have := h.head
        rw [hl] at this
        simp only [List.head?_cons, Option.some.injEq] at this
        subst this
        simp only [State.step, hl, if_neg h.done] at hs
        cases hs
    have hfin : ∀ k ok, (s.finish v k ok).queues w = s.queues w := fun k ok => by
      simp only [State.finish]; rw [if_neg (fun hh => hv hh.symm)]
    have hhd : ∀ (q : State) x, q.queues = s.queues → (q.head v x).queues w = s.queues w := fun q x hqs => by
      simp only [State.head, hqs]; rw [if_neg (fun hh => hv hh.symm)]
    simp only [State.step] at hs
    split at hs
    · simp at hs
    · simp only [Option.some.injEq] at hs; subst hs; exact ⟨[], by rw [hfin]; simp⟩
    · simp only [Option.some.injEq] at hs; subst hs; exact ⟨[], by rw [hfin]; simp⟩
    · split at hs
      · simp only [Option.some.injEq] at hs; subst hs; exact ⟨[], by rw [hhd _ _ rfl]; simp⟩
      · simp at hs
    · simp only [Option.some.injEq] at hs; subst hs; exact ⟨[], by rw [hfin]; simp⟩
    · split at hs
      · simp at hs
      · split at hs
        · simp only [Option.some.injEq] at hs; subst hs; exact ⟨[], by rw [hfin]; simp⟩
        · simp only [Option.some.injEq] at hs; subst hs
          apply hadd
          apply hhd
          rfl

theorem run_own_prefix {as : List Act} {w id a : Nat} {body : List Bool} {j : Nat} : ∀ {s s' : State}, Own s w id a body j → s.run as = some s' →
    ∃ l, s'.queues w = s.queues w ++ l := by
  induction as with
  | nil => intro s s' h hr; simp only [State.run, Option.some.injEq] at hr; subst hr; exact ⟨[], by simp⟩
  | cons o os ih =>
    intro s s' h hr
    simp only [State.run, Option.bind_eq_some_iff] at hr
    obtain ⟨u, hu, hr⟩ := hr
    obtain ⟨l, hl⟩ := step_own_prefix h hu
    obtain ⟨l', hl'⟩ := ih (step_own h hu) hr
    exact ⟨l ++ l', by rw [hl', hl, List.append_assoc]⟩

/-- If nothing can go on, a worker that has something to do executes a method that waits. -/
theorem blocked {s : State} (h : Inv s) {w : Nat} (hs : s.step (.work w) = none) (hq : s.queues w ≠ []) :
    ∃ id a body j rest, s.queues w = (id, .method a body (some j)) :: rest ∧ j ∉ s.done.map (·.1) := by
  simp only [State.step] at hs
  split at hs
  · rename_i h0; exact absurd h0 hq
  · simp at hs
  · simp at hs
  · rename_i id a body j rest hq'
    split at hs
    · simp at hs
    · rename_i hd; exact ⟨id, a, body, j, rest, hq', hd⟩
  · simp at hs
  · rename_i id a g body rest hq'
    obtain ⟨x, hx, _⟩ := h.place w _ (by rw [hq']; exact List.mem_cons_self) a _ _ rfl
    rw [hx] at hs
    simp only at hs
    split at hs <;> simp at hs

/-- If nothing can go on and something is to be done, a method waits for its own worker. -/
theorem stuck {s : State} (h : Inv s) (hs : ∀ w, s.step (.work w) = none) : ∀ d a w id body j rest, s.actors.length - a ≤ d →
    s.queues w = (id, .method a body (some j)) :: rest → j ∉ s.done.map (·.1) →
    ∃ w id a body j rest, s.queues w = (id, .method a body (some j)) :: rest ∧ (j, .plain) ∈ rest ∧ j ∉ s.done.map (·.1) := by
  intro d
  induction d with
  | zero =>
    intro a w id body j rest hd hq _
    obtain ⟨x, hx, _⟩ := h.place w _ (by rw [hq]; exact List.mem_cons_self) a _ _ rfl
    have := (List.getElem?_eq_some_iff.1 hx).1; omega
  | succ d ih =>
    intro a w id body j rest hd hq hj
    obtain ⟨x, hx, hxw⟩ := h.place w _ (by rw [hq]; exact List.mem_cons_self) a _ _ rfl
    have hal := (List.getElem?_eq_some_iff.1 hx).1
    obtain hdn | ⟨v, hv, hb⟩ := h.waits w _ (by rw [hq]; exact List.mem_cons_self) a body j rfl
    · exact absurd hdn hj
    obtain ⟨id', b, body', j', rest', hq', hj'⟩ := blocked h (hs v) (fun h0 => by rw [h0] at hv; simp at hv)
    obtain ⟨y, hy, hyv⟩ := h.place v _ (by rw [hq']; exact List.mem_cons_self) b _ _ rfl
    rcases Nat.lt_or_ge a b with hab | hab
    · exact ih b v id' body' j' rest' (by omega) hq' hj'
    · have hba := hb b y hy hyv
      have : a = b := by omega
      subst this
      rw [hx] at hy; cases hy
      rw [hxw] at hyv; subst hyv
      refine ⟨w, id, a, body, j, rest, hq, ?_, hj⟩
      rw [hq] at hv
      rcases List.mem_cons.1 hv with hv | hv
      · cases hv
      · exact hv

/-- How many steps the execution of a job can take. -/
def weight : Job → Nat
  | .plain => 1
  | .nested => 1
  | .method _ body o => 1 + 3 * body.length + if o.isSome then 1 else 0

/-- What is to be done in a queue. -/
def load (s : State) (w : Nat) : Nat := ((s.queues w).map fun x => weight x.2).sum

/-- What is to be done in the first `n` queues. -/
def total (s : State) : Nat → Nat
  | 0 => 0
  | n + 1 => total s n + load s n

theorem total_eq {s s' : State} {w : Nat} (h : ∀ v, v ≠ w → load s' v = load s v) : ∀ n, total s' n + (if w < n then load s w else 0) = total s n + if w < n then load s' w else 0 := by
  intro n
  induction n with
  | zero => rfl
  | succ n ih =>
    simp only [total]
    by_cases hw : w = n
    · subst hw
      rw [if_neg (by omega), if_neg (by omega)] at ih
      rw [if_pos (by omega), if_pos (by omega)]
      omega
    · rw [h n (fun hh => hw hh.symm)]
      by_cases hlt : w < n
      · rw [if_pos hlt, if_pos hlt] at ih
        rw [if_pos (by omega), if_pos (by omega)]; omega
      · rw [if_neg hlt, if_neg hlt] at ih
        rw [if_neg (by omega), if_neg (by omega)]; omega

theorem load_add (s : State) (w v : Nat) (j : Job) : load (s.add w j) v = load s v + if v = w then weight j else 0 := by
  simp only [load, State.add]; split <;> simp

theorem total_add (s : State) (w : Nat) (j : Job) (n : Nat) : total (s.add w j) n ≤ total s n + weight j := by
  have h := total_eq (s := s) (s' := s.add w j) (w := w) (fun v hv => by rw [load_add, if_neg hv]; rfl) n
  rw [load_add, if_pos rfl] at h
  by_cases hw : w < n
  · rw [if_pos hw, if_pos hw] at h; omega
  · rw [if_neg hw, if_neg hw] at h; omega

theorem load_finish (s : State) (w id : Nat) (ok : Bool) (j : Job) (l : List (Nat × Job)) (hq : s.queues w = (id, j) :: l) (v : Nat) :
    load (s.finish w id ok) v + (if v = w then weight j else 0) = load s v := by
  simp only [load, State.finish]
  split
  · rename_i hv; subst hv; rw [hq]; simp; omega
  · simp

theorem total_finish (s : State) (w id : Nat) (ok : Bool) (j : Job) (l : List (Nat × Job)) (hq : s.queues w = (id, j) :: l) (n : Nat) (hw : w < n) :
    total (s.finish w id ok) n + weight j = total s n := by
  have hl := load_finish s w id ok j l hq
  have h := total_eq (s := s) (s' := s.finish w id ok) (w := w) (fun v hv => by have := hl v; rw [if_neg hv] at this; exact this) n
  rw [if_pos hw, if_pos hw] at h
  have := hl w
  rw [if_pos rfl] at this
  omega

theorem total_head (s : State) (w id : Nat) (j j' : Job) (l : List (Nat × Job)) (hq : s.queues w = (id, j) :: l) (n : Nat) (hw : w < n) :
    total (s.head w (id, j')) n + weight j = total s n + weight j' := by
  have h := total_eq (s := s) (s' := s.head w (id, j')) (w := w) (fun v hv => by simp [load, State.head, hv]) n
  rw [if_pos hw, if_pos hw] at h
  have h1 : load (s.head w (id, j')) w + weight j = load s w + weight j' := by simp [load, State.head, hq]; omega
  omega

theorem weight_pos (j : Job) : 0 < weight j := by cases j <;> simp [weight]; omega

/-- Whatever a worker does makes less to be done. -/
theorem work_less {s s' : State} {w : Nat} (n : Nat) (hw : w < n) (hs : s.step (.work w) = some s') : total s' n < total s n := by
  simp only [State.step] at hs
  split at hs
  · simp at hs
  · rename_i hq; simp only [Option.some.injEq] at hs; subst hs
    have := total_finish s w _ true _ _ hq n hw; have := weight_pos .plain; omega
  · rename_i hq; simp only [Option.some.injEq] at hs; subst hs
    have := total_finish s w _ false _ _ hq n hw; have := weight_pos .nested; omega
  · rename_i a body j _ hq
    split at hs
    · simp only [Option.some.injEq] at hs; subst hs
      have := total_head s w _ _ (.method a body none) _ hq n hw
      simp [weight] at this; omega
    · simp at hs
  · rename_i a _ hq; simp only [Option.some.injEq] at hs; subst hs
    have := total_finish s w _ true _ _ hq n hw; have := weight_pos (.method a [] none); omega
  · rename_i id a g body _ hq
    split at hs
    · simp at hs
    · rename_i x hx
      split at hs
      · simp only [Option.some.injEq] at hs; subst hs
        have := total_finish s w _ false _ _ hq n hw; have := weight_pos (.method a (g :: body) none); omega
      · rename_i i p _
        simp only [Option.some.injEq] at hs; subst hs
        have h1 := total_head { s with actors := s.actors.set a (x.1, p) } w id _ (.method a body (if g then some s.next else none)) _ hq n hw
        have h2 := total_add (({ s with actors := s.actors.set a (x.1, p) } : State).head w (id, .method a body (if g then some s.next else none))) i .plain n
        have h3 : total { s with actors := s.actors.set a (x.1, p) } n = total s n := by
          clear h1 h2 hw
          induction n with
          | zero => rfl
          | succ n ih => simp only [total, ih]; rfl
        have h4 : weight (.method a body (if g then some s.next else none)) + weight .plain < weight (.method a (g :: body) none) := by
          cases g <;> simp [weight] <;> omega
        omega

/-- The workers are those of the main process. -/
structure Dom (n : Nat) (s : State) : Prop where
  main : s.main.grabbed.length = n
  actors : ∀ x ∈ s.actors, x.1 < n ∧ x.2.grabbed.length = n
  queues : ∀ w, s.queues w ≠ [] → w < n

theorem Dom.init (n : Nat) : Dom n (State.init n) := ⟨by simp [State.init], by simp [State.init], by simp [State.init]⟩

theorem Dom.add {n : Nat} {s : State} (h : Dom n s) (w : Nat) (j : Job) (hw : w < n) : Dom n (s.add w j) := by
  refine ⟨h.main, h.actors, fun v hv => ?_⟩
  simp only [State.add] at hv
  split at hv
  · omega
  · exact h.queues v hv

theorem Dom.finish {n : Nat} {s : State} (h : Dom n s) (w id : Nat) (ok : Bool) : Dom n (s.finish w id ok) := by
  refine ⟨h.main, h.actors, fun v hv => h.queues v fun h0 => hv ?_⟩
  simp [State.finish, h0]

theorem Dom.head {n : Nat} {s : State} (h : Dom n s) (w : Nat) (x : Nat × Job) (hw : w < n) : Dom n (s.head w x) := by
  refine ⟨h.main, h.actors, fun v hv => ?_⟩
  simp only [State.head] at hv
  split at hv
  · omega
  · exact h.queues v hv

theorem step_dom {n : Nat} {s s' : State} {act : Act} (h : Dom n s) (hs : s.step act = some s') : Dom n s' := by
  have sub : ∀ {p : Pool} {r : Nat × Pool}, p.grabbed.length = n → p.submit = some r → r.1 < n ∧ r.2.grabbed.length = n := by
    intro p r hp hr
    obtain ⟨h1, h2, _⟩ := submit_free hr
    exact ⟨hp ▸ (List.getElem?_eq_some_iff.1 h1).1, by rw [h2, hp]⟩
  cases act with
  | create =>
    simp only [State.step] at hs
    split at hs
    · simp only [Option.some.injEq] at hs; exact hs ▸ h
    · rename_i w p hg
      simp only [Option.some.injEq] at hs; subst hs
      obtain ⟨h1, h2⟩ := grab_some hg
      simp only at h1 h2
      refine ⟨by simp [h2, h.main], fun x hx => ?_, h.queues⟩
      rcases List.mem_append.1 hx with hx | hx
      · exact h.actors x hx
      · simp only [List.mem_singleton] at hx; subst hx; exact ⟨h.main ▸ (List.getElem?_eq_some_iff.1 h1).1, h.main⟩
  | call nested =>
    simp only [State.step] at hs
    split at hs
    · simp only [Option.some.injEq] at hs; exact hs ▸ h
    · rename_i w p hg
      simp only [Option.some.injEq] at hs; subst hs
      obtain ⟨h1, h2⟩ := sub h.main hg
      apply Dom.add _ _ _ h1
      exact ⟨h2, h.actors, h.queues⟩
  | method a body =>
    simp only [State.step] at hs
    split at hs
    · simp at hs
    · rename_i x hx
      simp only [Option.some.injEq] at hs; subst hs
      exact h.add _ _ (h.actors x (List.mem_iff_getElem?.2 ⟨a, hx⟩)).1
  | work w =>
    simp only [State.step] at hs
    split at hs
    · simp at hs
    · simp only [Option.some.injEq] at hs; subst hs; exact h.finish _ _ _
    · simp only [Option.some.injEq] at hs; subst hs; exact h.finish _ _ _
    · rename_i hq
      split at hs
      · simp only [Option.some.injEq] at hs; subst hs; exact h.head _ _ (h.queues w (by simp [hq]))
      · simp at hs
    · simp only [Option.some.injEq] at hs; subst hs; exact h.finish _ _ _
    · rename_i a _ _ _ hq
      split at hs
      · simp at hs
      · rename_i x hx
        split at hs
        · simp only [Option.some.injEq] at hs; subst hs; exact h.finish _ _ _
        · rename_i i p hsub
          simp only [Option.some.injEq] at hs; subst hs
          have hx' := h.actors x (List.mem_iff_getElem?.2 ⟨a, hx⟩)
          obtain ⟨h1, h2⟩ := sub hx'.2 hsub
          apply Dom.add _ _ _ h1
          apply Dom.head _ _ _ (h.queues w (by simp [hq]))
          refine ⟨h.main, fun y hy => ?_, h.queues⟩
          rcases List.mem_or_eq_of_mem_set hy with hy | rfl
          · exact h.actors y hy
          · exact ⟨hx'.1, h2⟩

theorem run_dom {n : Nat} {as : List Act} : ∀ {s s' : State}, Dom n s → s.run as = some s' → Dom n s' := by
  induction as with
  | nil => intro s s' h hr; simp only [State.run, Option.some.injEq] at hr; exact hr ▸ h
  | cons o os ih =>
    intro s s' h hr
    simp only [State.run, Option.bind_eq_some_iff] at hr
    obtain ⟨u, hu, hr⟩ := hr
    exact ih (step_dom h hu) hr

/-- The workers alone come to a stop. -/
theorem works_le {n : Nat} (ws : List Nat) : ∀ {s s' : State}, Dom n s → s.run (ws.map .work) = some s' → ws.length ≤ total s n := by
  induction ws with
  | nil => intro s s' _ _; simp
  | cons w ws ih =>
    intro s s' h hr
    simp only [List.map_cons, State.run, Option.bind_eq_some_iff] at hr
    obtain ⟨u, hu, hr⟩ := hr
    have hw : w < n := h.queues w fun h0 => by simp [State.step, h0] at hu
    have := work_less n hw hu
    have := ih (step_dom h hu) hr
    simp only [List.length_cons]; omega

/-- What is known of call `j`: it is a function with calls inside or not, and the result accordingly. -/
structure Kind (s : State) (j : Nat) (bad : Bool) : Prop where
  queue : ∀ w, ∀ it ∈ s.queues w, it.1 = j → (it.2 = .nested ↔ bad = true)
  done : ∀ x ∈ s.done, x.1 = j → x.2 = !bad
  lt : j < s.next

theorem Kind.add {s : State} {j : Nat} {bad : Bool} (h : Kind s j bad) (w : Nat) (x : Job) : Kind (s.add w x) j bad := by
  refine ⟨fun v it hit hj => ?_, h.done, Nat.lt_succ_of_lt h.lt⟩
  rcases mem_add.1 hit with hit | ⟨_, rfl⟩
  · exact h.queue v it hit hj
  · have := h.lt; simp only at hj; omega

theorem Kind.finish {s : State} {j : Nat} {bad : Bool} (h : Kind s j bad) (w id : Nat) (ok : Bool) (x : Job) (hq : (id, x) ∈ s.queues w)
    (hok : ok = false ↔ x = .nested) : Kind (s.finish w id ok) j bad := by
  refine ⟨fun v it hit => h.queue v it (mem_finish hit), fun y hy hj => ?_, h.lt⟩
  simp only [State.finish, List.mem_append, List.mem_singleton] at hy
  rcases hy with hy | rfl
  · exact h.done y hy hj
  · have := h.queue w _ hq hj
    simp only at this ⊢
    rw [← hok] at this
    cases ok <;> cases bad <;> simp_all

theorem Kind.head {s : State} {j : Nat} {bad : Bool} (h : Kind s j bad) (w id : Nat) (x x' : Job) (hq : (id, x) ∈ s.queues w)
    (hx : x = .nested ↔ x' = .nested) : Kind (s.head w (id, x')) j bad := by
  refine ⟨fun v it hit hj => ?_, h.done, h.lt⟩
  simp only [State.head] at hit
  split at hit
  · rename_i hv
    subst hv
    rcases List.mem_cons.1 hit with rfl | hit
    · rw [← hx]; exact h.queue v _ hq hj
    · exact h.queue v it (List.mem_of_mem_tail hit) hj
  · exact h.queue v it hit hj

theorem step_kind {s s' : State} {act : Act} {j : Nat} {bad : Bool} (hi : Inv s) (h : Kind s j bad) (hs : s.step act = some s') : Kind s' j bad := by
  cases act with
  | create =>
    simp only [State.step] at hs
    split at hs
    · simp only [Option.some.injEq] at hs; exact hs ▸ h
    · simp only [Option.some.injEq] at hs; subst hs; exact ⟨h.queue, h.done, h.lt⟩
  | call nested =>
    simp only [State.step] at hs
    split at hs
    · simp only [Option.some.injEq] at hs; exact hs ▸ h
    · simp only [Option.some.injEq] at hs; subst hs
      apply Kind.add
      exact ⟨h.queue, h.done, h.lt⟩
  | method b body' =>
    simp only [State.step] at hs
    split at hs
    · simp at hs
    · simp only [Option.some.injEq] at hs; subst hs; exact h.add _ _
  | work v =>
    simp only [State.step] at hs
    split at hs
    · simp at hs
    · rename_i hq; simp only [Option.some.injEq] at hs; subst hs
      exact h.finish v _ _ .plain (by rw [hq]; exact List.mem_cons_self) (by simp)
    · rename_i hq; simp only [Option.some.injEq] at hs; subst hs
      exact h.finish v _ _ .nested (by rw [hq]; exact List.mem_cons_self) (by simp)
    · rename_i a body i _ hq
      split at hs
      · simp only [Option.some.injEq] at hs; subst hs
        exact h.head v _ (.method a body (some i)) _ (by rw [hq]; exact List.mem_cons_self) (by simp)
      · simp at hs
    · rename_i a _ hq; simp only [Option.some.injEq] at hs; subst hs
      exact h.finish v _ _ (.method a [] none) (by rw [hq]; exact List.mem_cons_self) (by simp)
    · rename_i a g body _ hq
      split at hs
      · simp at hs
      · rename_i x hx
        split at hs
        · rename_i hnone
          have hown := hi.own x (List.mem_iff_getElem?.2 ⟨a, hx⟩)
          obtain ⟨r, hr⟩ := submit_some hown.1 hown.2
          rw [hr] at hnone; cases hnone
        · simp only [Option.some.injEq] at hs; subst hs
          apply Kind.add
          refine Kind.head ?_ v _ (.method a (g :: body) none) _ ?_ (by simp)
          · exact ⟨h.queue, h.done, h.lt⟩
          · simp [hq]

theorem run_kind {as : List Act} {j : Nat} {bad : Bool} : ∀ {s s' : State}, Inv s → Kind s j bad → s.run as = some s' → Kind s' j bad := by
  induction as with
  | nil => intro s s' _ h hr; simp only [State.run, Option.some.injEq] at hr; exact hr ▸ h
  | cons o os ih =>
    intro s s' hi h hr
    simp only [State.run, Option.bind_eq_some_iff] at hr
    obtain ⟨u, hu, hr⟩ := hr
    exact ih (step_inv hi hu) (step_kind hi h hu) hr

theorem Kind.fresh {s : State} (hu : Uniq s) (w : Nat) (x : Job) (bad : Bool) (hx : x = .nested ↔ bad = true) : Kind (s.add w x) s.next bad := by
  refine ⟨fun v it hit hj => ?_, fun y hy hj => ?_, Nat.lt_succ_self _⟩
  · rcases mem_add.1 hit with hit | ⟨_, rfl⟩
    · have := hu.lt v it.1 (List.mem_map.2 ⟨it, hit, rfl⟩); omega
    · exact hx
  · have := hu.doneLt y.1 (List.mem_map.2 ⟨y, hy, rfl⟩); omega

/-- The kind of the call that a step makes. -/
theorem step_fresh {s s' : State} {act : Act} (hu : Uniq s) (hs : s.step act = some s') (hn : s'.next = s.next + 1) :
    Kind s' s.next (decide (act = .call true)) := by
  cases act with
  | create =>
    simp only [State.step] at hs
    split at hs <;> (simp only [Option.some.injEq] at hs; subst hs; simp at hn)
  | call nested =>
    simp only [State.step] at hs
    split at hs
    · simp only [Option.some.injEq] at hs; subst hs; simp at hn
    · rename_i w p _
      simp only [Option.some.injEq] at hs; subst hs
      have hu' : Uniq { s with main := p } := hu.of_eq (fun _ => rfl) rfl rfl
      exact Kind.fresh hu' w _ _ (by cases nested <;> simp)
  | method a body =>
    simp only [State.step] at hs
    split at hs
    · simp at hs
    · simp only [Option.some.injEq] at hs; subst hs; exact Kind.fresh hu _ _ _ (by simp)
  | work w =>
    simp only [State.step] at hs
    split at hs
    · simp at hs
    · simp only [Option.some.injEq] at hs; subst hs; simp [State.finish] at hn
    · simp only [Option.some.injEq] at hs; subst hs; simp [State.finish] at hn
    · split at hs
      · simp only [Option.some.injEq] at hs; subst hs; simp [State.head] at hn
      · simp at hs
    · simp only [Option.some.injEq] at hs; subst hs; simp [State.finish] at hn
    · rename_i id a g body _ hq
      split at hs
      · simp at hs
      · rename_i x hx
        split at hs
        · simp only [Option.some.injEq] at hs; subst hs; simp [State.finish] at hn
        · rename_i i p _
          simp only [Option.some.injEq] at hs; subst hs
          have hu' : Uniq (({ s with actors := s.actors.set a (x.1, p) } : State).head w (id, .method a body (if g then some s.next else none))) := by
            refine hu.of_eq (fun v => ?_) rfl rfl
            rw [ids_head _ _ _ _ _ (by simp [ids, hq])]; rfl
          exact Kind.fresh hu' i _ _ (by simp)

/-- Methods do not get results. -/
def NoGet (s : State) : Prop := ∀ w, ∀ it ∈ s.queues w, ∀ a body o, it.2 = .method a body o → true ∉ body ∧ o = none

theorem step_noGet {s s' : State} {act : Act} (h : NoGet s) (ha : ∀ a body, act = .method a body → true ∉ body) (hs : s.step act = some s') : NoGet s' := by
  have add : ∀ (t : State) w x, NoGet t → (∀ a body o, x = .method a body o → true ∉ body ∧ o = none) → NoGet (t.add w x) := by
    intro t w x ht hx v it hit
    rcases mem_add.1 hit with hit | ⟨_, rfl⟩
    · exact ht v it hit
    · exact hx
  have fin : ∀ w id ok, NoGet (s.finish w id ok) := fun w id ok v it hit => h v it (mem_finish hit)
  have hd : ∀ (t : State) w id x, NoGet t → (∀ a body o, x = .method a body o → true ∉ body ∧ o = none) → NoGet (t.head w (id, x)) := by
    intro t w id x ht hx v it hit
    simp only [State.head] at hit
    split at hit
    · rcases List.mem_cons.1 hit with rfl | hit
      · exact hx
      · exact ht v it (List.mem_of_mem_tail hit)
    · exact ht v it hit
  cases act with
  | create =>
    simp only [State.step] at hs
    split at hs <;> (simp only [Option.some.injEq] at hs; subst hs; exact h)
  | call nested =>
    simp only [State.step] at hs
    split at hs
    · simp only [Option.some.injEq] at hs; subst hs; exact h
    · simp only [Option.some.injEq] at hs; subst hs
      apply add
      · exact h
      · intro a body o hh; split at hh <;> cases hh
  | method a body =>
    simp only [State.step] at hs
    split at hs
    · simp at hs
    · simp only [Option.some.injEq] at hs; subst hs
      apply add _ _ _ h
      intro a' body' o hh; cases hh; exact ⟨ha a body rfl, rfl⟩
  | work w =>
    simp only [State.step] at hs
    split at hs
    · simp at hs
    · simp only [Option.some.injEq] at hs; subst hs; exact fin _ _ _
    · simp only [Option.some.injEq] at hs; subst hs; exact fin _ _ _
    · rename_i a body j _ hq
      have := (h w _ (by rw [hq]; exact List.mem_cons_self) a body (some j) rfl).2
      cases this
    · simp only [Option.some.injEq] at hs; subst hs; exact fin _ _ _
    · rename_i id a g body _ hq
      have hm := (h w _ (by rw [hq]; exact List.mem_cons_self) a (g :: body) none rfl).1
      simp only [List.mem_cons, not_or] at hm
      have hg : g = false := by cases g <;> simp_all
      split at hs
      · simp at hs
      · split at hs
        · simp only [Option.some.injEq] at hs; subst hs; exact fin _ _ _
        · simp only [Option.some.injEq] at hs; subst hs
          apply add
          · apply hd
            · exact h
            · intro a' body' o hh; subst hg; cases hh; exact ⟨hm.2, rfl⟩
          · intro a' body' o hh; cases hh

theorem run_noGet {as : List Act} : ∀ {s s' : State}, NoGet s → (∀ a body, .method a body ∈ as → true ∉ body) → s.run as = some s' → NoGet s' := by
  induction as with
  | nil => intro s s' h _ hr; simp only [State.run, Option.some.injEq] at hr; exact hr ▸ h
  | cons o os ih =>
    intro s s' h ha hr
    simp only [State.run, Option.bind_eq_some_iff] at hr
    obtain ⟨u, hu, hr⟩ := hr
    exact ih (step_noGet h (fun a body hh => ha a body (by rw [hh]; exact List.mem_cons_self)) hu) (fun a body hm => ha a body (List.mem_cons_of_mem _ hm)) hr

theorem run_append (as bs : List Act) : ∀ (s : State), s.run (as ++ bs) = (s.run as).bind fun u => u.run bs := by
  induction as with
  | nil => intro s; rfl
  | cons o os ih =>
    intro s
    simp only [List.cons_append, State.run]
    cases s.step o with
    | none => rfl
    | some u => simp only [Option.bind_some]; exact ih u

end Verif.PympNested
