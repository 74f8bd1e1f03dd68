import Verif.Model.PympPlaces
import Verif.Lemmas.PympNested

namespace Verif.PympPlaces
open Verif.PympNested (Pool grab_some submit_free)

/-- What process `k` thinks of worker `i`. -/
def mark (s : State) (k i : Nat) : Option Bool := (s.pools[k]?).bind fun q => q.grabbed[i]?

theorem grab_first {q : Pool} {r : Nat × Pool} (h : q.grab = some r) (i : Nat) (hi : i < r.1) : q.grabbed[i]? = some true := by
  simp only [Pool.grab] at h
  split at h
  · rename_i hm
    simp only [Option.some.injEq] at h; subst h
    simp only at hi
    have hl : q.grabbed.idxOf false < q.grabbed.length := List.idxOf_lt_length_of_mem hm
    rw [List.getElem?_eq_getElem (by omega)]
    cases hb : q.grabbed[i] with
    | true => rfl
    | false =>
      exfalso
      have := List.not_of_lt_findIdx (p := (· == false)) (xs := q.grabbed) (i := i) (by simpa [List.idxOf] using hi)
      simp [hb] at this
  · simp at h

theorem grab_none {q : Pool} (h : q.grab = none) (i : Nat) : q.grabbed[i]? ≠ some false := by
  simp only [Pool.grab] at h
  split at h
  · simp at h
  · rename_i hm
    exact fun hh => hm (List.mem_of_getElem? hh)

/-- The effect of a creation. -/
theorem step_create {s s' : State} {p : Nat} (hl : s.pools.length = s.actors.length + 1) (h : s.step (.create p) = some s') :
    s.runs p = true ∧ (s' = s ∨ ∃ w, mark s p w = some false ∧ (∀ i < w, mark s p i = some true) ∧ s'.actors = s.actors ++ [⟨p, w, true⟩] ∧
      s'.pools.length = s'.actors.length + 1 ∧ s'.calls = s.calls ∧ p < s.pools.length ∧
      ∀ k i, mark s' k i = if k = s.actors.length + 1 then mark s p i else if k = p ∧ i = w then some true else mark s k i) := by
  simp only [State.step] at h
  split at h
  · rename_i hr
    refine ⟨hr, ?_⟩
    split at h
    · simp at h
    · rename_i q hq
      split at h
      · simp only [Option.some.injEq] at h; exact .inl h.symm
      · rename_i w q' hg
        simp only [Option.some.injEq] at h; subst h
        obtain ⟨hf, hq'⟩ := grab_some hg
        simp only at hf hq'
        have hpl : p < s.pools.length := (List.getElem?_eq_some_iff.1 hq).1
        refine .inr ⟨w, by simp only [mark, hq]; exact hf, fun i hi => by simp only [mark, hq]; exact grab_first hg i hi, rfl, ?_, rfl, hpl, fun k i => ?_⟩
        · simp [hl]
        · have hwl : w < q.grabbed.length := (List.getElem?_eq_some_iff.1 hf).1
          by_cases hk : k = s.actors.length + 1
          · subst hk
            rw [if_pos rfl]
            simp only [mark]
            rw [List.getElem?_append_right (by simp [hl])]
            simp [hl, hq]
          · rw [if_neg hk]
            simp only [mark]
            by_cases hkl : k < s.pools.length
            · rw [List.getElem?_append_left (by simpa using hkl), List.getElem?_set]
              by_cases hkp : p = k
              · subst hkp
                rw [if_pos rfl, if_pos hkl]
                simp only [Option.bind_some, hq', List.getElem?_set, hq]
                by_cases hi : w = i
                · subst hi; simp [hwl]
                · rw [if_neg hi, if_neg (fun hh => hi hh.2.symm)]
              · rw [if_neg hkp, if_neg (fun hh => hkp hh.1.symm)]
            · rw [List.getElem?_eq_none (by simp; omega), List.getElem?_eq_none (by omega)]
              rw [if_neg (by intro hh; omega)]
  · simp at h

/-- The effect of a call of a function. -/
theorem step_call {s s' : State} {p : Nat} (h : s.step (.call p) = some s') :
    s'.actors = s.actors ∧ s'.pools.length = s.pools.length ∧ (∀ k i, mark s' k i = mark s k i) ∧
      (s'.calls = s.calls ∨ ∃ w, s'.calls = s.calls ++ [(p, w)] ∧ mark s p w = some false) := by
  simp only [State.step] at h
  split at h
  · split at h
    · simp at h
    · rename_i q hq
      split at h
      · simp only [Option.some.injEq] at h; subst h; exact ⟨rfl, rfl, fun _ _ => rfl, .inl rfl⟩
      · rename_i w q' hg
        simp only [Option.some.injEq] at h; subst h
        obtain ⟨hf, hgr, _⟩ := submit_free hg
        simp only at hf hgr
        refine ⟨rfl, by simp, fun k i => ?_, .inr ⟨w, rfl, by simp only [mark, hq]; exact hf⟩⟩
        simp only [mark, List.getElem?_set]
        by_cases hkp : p = k
        · subst hkp
          rw [if_pos rfl, if_pos (List.getElem?_eq_some_iff.1 hq).1, hq]
          simp [hgr]
        · rw [if_neg hkp]
  · simp at h

/-- The effect of dropping a handle. -/
theorem step_drop {s s' : State} {a : Nat} (h : s.step (.drop a) = some s') : ∃ x, s.actors[a]? = some x ∧ x.alive = true ∧
    (∀ y ∈ s.actors, y.maker = a + 1 → y.alive = false) ∧ s'.actors = s.actors.set a { x with alive := false } ∧ s'.pools.length = s.pools.length ∧
    s'.calls = s.calls ∧ ∀ k i, (mark s x.maker x.worker).isSome → mark s' k i = if k = x.maker ∧ i = x.worker then some false else mark s k i := by
  simp only [State.step] at h
  split at h
  · simp at h
  · rename_i x hx
    split at h
    · rename_i hc
      simp only [Option.some.injEq] at h; subst h
      refine ⟨x, hx, hc.1, hc.2, rfl, by simp, rfl, fun k i hsome => ?_⟩
      simp only [mark, List.getElem?_modify]
      simp only [mark] at hsome
      by_cases hk : x.maker = k
      · subst hk
        cases hq : s.pools[x.maker]? with
        | none => rw [hq] at hsome; simp at hsome
        | some q =>
          rw [hq] at hsome
          simp only [Option.bind_some] at hsome
          have hfree : ∀ j : Nat, (free x.worker q).grabbed[j]? = (q.grabbed.set x.worker false)[j]? := fun _ => rfl
          simp only [if_true, Option.map_eq_map, Option.map_some, Option.bind_some, hfree, List.getElem?_set]
          by_cases hi : x.worker = i
          · subst hi
            have : x.worker < q.grabbed.length := by
              rcases Nat.lt_or_ge x.worker q.grabbed.length with hh | hh
              · exact hh
              · rw [List.getElem?_eq_none hh] at hsome; simp at hsome
            simp [this]
          · rw [if_neg hi, if_neg (fun hh => hi hh.2.symm)]
      · rw [if_neg (fun hh => hk hh.1.symm)]
        cases s.pools[k]? <;> simp [hk]
    · simp at h

/-- The invariant of a history. -/
structure Inv (s : State) : Prop where
  len : s.pools.length = s.actors.length + 1
  maker : ∀ (a : Nat) (x : Place), s.actors[a]? = some x → x.maker ≤ a
  held : ∀ (a : Nat) (x : Place), s.actors[a]? = some x → x.alive = true → mark s x.maker x.worker = some true
  sib : ∀ (a b : Nat) (x y : Place), s.actors[a]? = some x → s.actors[b]? = some y → x.alive = true → y.alive = true → x.maker = y.maker → a ≠ b →
    x.worker ≠ y.worker
  below : ∀ (a : Nat) (x : Place) (i : Nat), s.actors[a]? = some x → x.alive = true → i < x.worker → mark s (a + 1) i = some true
  own : ∀ (a : Nat) (x : Place), s.actors[a]? = some x → x.alive = true → mark s (a + 1) x.worker = some false ∨
    ∃ (b : Nat) (y : Place), s.actors[b]? = some y ∧ y.alive = true ∧ y.maker = a + 1 ∧ y.worker = x.worker
  kids : ∀ (a b : Nat) (x y : Place), s.actors[a]? = some x → x.alive = true → s.actors[b]? = some y → y.alive = true → y.maker = a + 1 → x.worker ≤ y.worker

theorem Inv.init (n : Nat) : Inv (State.init n) := by
  refine ⟨rfl, ?_, ?_, ?_, ?_, ?_, ?_⟩ <;> intros <;> simp_all [State.init]

theorem lookup {l : List Place} {x : Place} {b : Nat} {y : Place} (h : (l ++ [x])[b]? = some y) : l[b]? = some y ∧ b < l.length ∨ b = l.length ∧ y = x := by
  rcases Nat.lt_or_ge b l.length with hb | hb
  · rw [List.getElem?_append_left hb] at h; exact .inl ⟨h, hb⟩
  · rw [List.getElem?_append_right hb] at h
    right
    have : b - l.length = 0 := by
      rcases Nat.eq_zero_or_pos (b - l.length) with h0 | h0
      · exact h0
      · rw [List.getElem?_eq_none (by simp; omega)] at h; cases h
    rw [this] at h
    simp only [List.getElem?_cons_zero, Option.some.injEq] at h
    exact ⟨by omega, h.symm⟩

theorem inv_create {s s' : State} {p : Nat} (hi : Inv s) (h : s.step (.create p) = some s') : Inv s' := by
  obtain ⟨hr, rfl | ⟨w, hf, hb, ha, hlen, -, hp, hm⟩⟩ := step_create hi.len h
  · exact hi
  have hpl : p ≤ s.actors.length := by have := hi.len; omega
  have hfree : ∀ (a : Nat) x, s.actors[a]? = some x → x.alive = true → x.maker = p → x.worker ≠ w := by
    intro a x hx hal hxp hw
    have := hi.held a x hx hal
    rw [hxp, hw, hf] at this
    cases this
  have keep : ∀ k i, k ≠ s.actors.length + 1 → mark s k i = some true → mark s' k i = some true := by
    intro k i hk ht
    rw [hm, if_neg hk]
    split
    · rfl
    · exact ht
  have old : ∀ {b : Nat} {y : Place}, s.actors[b]? = some y → s'.actors[b]? = some y := by
    intro b y hy
    rw [ha, List.getElem?_append_left (List.getElem?_eq_some_iff.1 hy).1]; exact hy
  have pnew : p ≠ s.actors.length + 1 := by omega
  have par : ∀ (a : Nat) x, s.actors[a]? = some x → p = a + 1 → x.alive = true := by
    intro a x hx hpa
    subst hpa
    simpa [State.runs, hx] using hr
  refine ⟨hlen, fun a x hx => ?_, fun a x hx hal => ?_, fun a b x y hx hy h1 h2 hxy hab => ?_, fun a x i hx hal hiw => ?_, fun a x hx hal => ?_,
    fun a b x y hx h1 hy h2 hyx => ?_⟩
  · rw [ha] at hx
    rcases lookup hx with ⟨hx, _⟩ | ⟨rfl, rfl⟩
    · exact hi.maker a x hx
    · exact hpl
  · rw [ha] at hx
    rcases lookup hx with ⟨hx, hal'⟩ | ⟨rfl, rfl⟩
    · have := hi.maker a x hx
      exact keep _ _ (by omega) (hi.held a x hx hal)
    · rw [hm, if_neg pnew, if_pos ⟨rfl, rfl⟩]
  · rw [ha] at hx hy
    rcases lookup hx with ⟨hx, _⟩ | ⟨rfl, rfl⟩
    · rcases lookup hy with ⟨hy, _⟩ | ⟨rfl, rfl⟩
      · exact hi.sib a b x y hx hy h1 h2 hxy hab
      · exact hfree a x hx h1 hxy
    · rcases lookup hy with ⟨hy, _⟩ | ⟨rfl, rfl⟩
      · exact fun e => hfree b y hy h2 hxy.symm e.symm
      · exact absurd rfl hab
  · rw [ha] at hx
    rcases lookup hx with ⟨hx, hlt⟩ | ⟨rfl, rfl⟩
    · exact keep _ _ (by omega) (hi.below a x i hx hal hiw)
    · rw [hm, if_pos rfl]; exact hb i hiw
  · rw [ha] at hx
    rcases lookup hx with ⟨hx, hlt⟩ | ⟨rfl, rfl⟩
    · rcases hi.own a x hx hal with ho | ⟨b, y, hy, h1, h2, h3⟩
      · by_cases hc : a + 1 = p ∧ x.worker = w
        · right
          exact ⟨s.actors.length, ⟨p, w, true⟩, by rw [ha]; simp, rfl, hc.1.symm, hc.2.symm⟩
        · left
          rw [hm, if_neg (by omega), if_neg hc]; exact ho
      · exact .inr ⟨b, y, old hy, h1, h2, h3⟩
    · left; rw [hm, if_pos rfl]; exact hf
  · rw [ha] at hx hy
    rcases lookup hx with ⟨hx, hlt⟩ | ⟨rfl, rfl⟩
    · rcases lookup hy with ⟨hy, _⟩ | ⟨rfl, rfl⟩
      · exact hi.kids a b x y hx h1 hy h2 hyx
      · simp only at hyx ⊢
        rcases Nat.lt_or_ge w x.worker with hlt' | hge
        · have := hi.below a x w hx h1 hlt'
          rw [← hyx, hf] at this; cases this
        · exact hge
    · rcases lookup hy with ⟨hy, hlt⟩ | ⟨rfl, rfl⟩
      · have := hi.maker b y hy; omega
      · simp only at hyx; omega

theorem inv_call {s s' : State} {p : Nat} (hi : Inv s) (h : s.step (.call p) = some s') : Inv s' := by
  obtain ⟨ha, hl, hm, -⟩ := step_call h
  refine ⟨by rw [hl, ha]; exact hi.len, ?_, ?_, ?_, ?_, ?_, ?_⟩
  all_goals simp only [hm, ha]
  · exact hi.maker
  · exact hi.held
  · exact hi.sib
  · exact hi.below
  · exact hi.own
  · exact hi.kids

theorem inv_drop {s s' : State} {a : Nat} (hi : Inv s) (h : s.step (.drop a) = some s') : Inv s' := by
  obtain ⟨x0, hx0, hal0, hkid, ha, hl, -, hm'⟩ := step_drop h
  have hm := fun k i => hm' k i (by rw [hi.held a x0 hx0 hal0]; rfl)
  have hlt0 : a < s.actors.length := (List.getElem?_eq_some_iff.1 hx0).1
  -- live actors afterwards are the live ones before, but `a`
  have back : ∀ {b : Nat} {y : Place}, s'.actors[b]? = some y → y.alive = true → s.actors[b]? = some y ∧ b ≠ a := by
    intro b y hy hal
    rw [ha, List.getElem?_set] at hy
    split at hy
    · rename_i hab; subst hab
      simp only [Option.some.injEq] at hy; subst hy
      simp at hal
    · rename_i hab; exact ⟨hy, fun e => hab e.symm⟩
  have fwd : ∀ {b : Nat} {y : Place}, s.actors[b]? = some y → b ≠ a → s'.actors[b]? = some y := by
    intro b y hy hb
    rw [ha, List.getElem?_set_ne (fun e => hb e.symm)]; exact hy
  have keep : ∀ k i, ¬ (k = x0.maker ∧ i = x0.worker) → mark s' k i = mark s k i := fun k i hc => by rw [hm, if_neg hc]
  refine ⟨by rw [hl, ha]; simp [hi.len], fun b x hx => ?_, fun b x hx hal => ?_, fun b c x y hx hy h1 h2 hxy hab => ?_, fun b x i hx hal hiw => ?_,
    fun b x hx hal => ?_, fun b c x y hx h1 hy h2 hyx => ?_⟩
  · rw [ha, List.getElem?_set] at hx
    split at hx
    · rename_i hab; subst hab
      simp only [Option.some.injEq] at hx; subst hx
      exact hi.maker a x0 hx0
    · exact hi.maker b x hx
  · obtain ⟨hx, hb⟩ := back hx hal
    rw [keep]
    · exact hi.held b x hx hal
    · rintro ⟨e1, e2⟩
      exact hi.sib b a x x0 hx hx0 hal hal0 e1 hb e2
  · obtain ⟨hx, _⟩ := back hx h1
    obtain ⟨hy, _⟩ := back hy h2
    exact hi.sib b c x y hx hy h1 h2 hxy hab
  · obtain ⟨hx, hb⟩ := back hx hal
    rw [keep]
    · exact hi.below b x i hx hal hiw
    · rintro ⟨e1, e2⟩
      have := hi.kids b a x x0 hx hal hx0 hal0 e1.symm
      omega
  · obtain ⟨hx, hb⟩ := back hx hal
    rcases hi.own b x hx hal with ho | ⟨c, y, hy, h1, h2, h3⟩
    · left
      rw [hm]
      split
      · rfl
      · exact ho
    · by_cases hc : c = a
      · subst hc
        rw [hx0] at hy
        cases hy
        left
        rw [hm, if_pos ⟨h2.symm, h3.symm⟩]
      · exact .inr ⟨c, y, fwd hy hc, h1, h2, h3⟩
  · obtain ⟨hx, _⟩ := back hx h1
    obtain ⟨hy, _⟩ := back hy h2
    exact hi.kids b c x y hx h1 hy h2 hyx

theorem inv_run (os : List Op) : ∀ {s s' : State}, Inv s → s.run os = some s' → Inv s' := by
  induction os with
  | nil => intro s s' hi h; simp only [State.run, Option.some.injEq] at h; exact h ▸ hi
  | cons o os ih =>
    intro s s' hi h
    simp only [State.run, Option.bind_eq_some_iff] at h
    obtain ⟨u, hu, h⟩ := h
    refine ih ?_ h
    cases o with
    | create p => exact inv_create hi hu
    | call p => exact inv_call hi hu
    | drop a => exact inv_drop hi hu

/-- Process `p` is that of actor `a`, or of an actor made in such a process, and so on; `ms` are the makers of the actors. -/
inductive Under (ms : List Nat) (a : Nat) : Nat → Prop
  | self : Under ms a (a + 1)
  | kid {c m : Nat} (hc : ms[c]? = some m) (h : Under ms a m) : Under ms a (c + 1)

/-- The makers of the actors. -/
def makers (s : State) : List Nat := s.actors.map (·.maker)

theorem under_old {ms : List Nat} {a p k : Nat} (hm : ∀ (c m : Nat), ms[c]? = some m → m ≤ c) (h : Under (ms ++ [p]) a k) :
    k ≤ ms.length → Under ms a k := by
  induction h with
  | self => intro _; exact .self
  | kid hc _ ih =>
    rename_i c m
    intro hk
    rw [List.getElem?_append_left (by omega)] at hc
    exact .kid hc (ih (by have := hm _ _ hc; omega))

theorem under_new {ms : List Nat} {a p k : Nat} (hm : ∀ (c m : Nat), ms[c]? = some m → m ≤ c) (hp : p ≤ ms.length) (ha : a < ms.length)
    (h : Under (ms ++ [p]) a k) : Under ms a k ∨ k = ms.length + 1 ∧ Under ms a p := by
  cases h with
  | self => exact .inl .self
  | kid hc h =>
    rename_i c m
    rcases Nat.lt_or_ge c ms.length with hl | hl
    · rw [List.getElem?_append_left hl] at hc
      exact .inl (.kid hc (under_old hm h (by have := hm _ _ hc; omega)))
    · have hcl := (List.getElem?_eq_some_iff.1 hc).1
      simp only [List.length_append, List.length_cons, List.length_nil] at hcl
      have hce : c = ms.length := by omega
      subst hce
      rw [List.getElem?_append_right (Nat.le_refl _)] at hc
      simp only [Nat.sub_self, List.getElem?_cons_zero, Option.some.injEq] at hc
      subst hc
      exact .inr ⟨rfl, under_old hm h hp⟩

/-- The second invariant: the processes of an actor and all below it avoid the workers of the actors that its maker had when it was made. -/
structure Early (s : State) : Prop where
  early : ∀ (a b p : Nat) (x y : Place), s.actors[a]? = some x → s.actors[b]? = some y → y.alive = true → b < a → y.maker = x.maker →
    Under (makers s) a p → p ≤ s.actors.length → mark s p y.worker = some true
  cousin : ∀ (a b c : Nat) (x y z : Place), s.actors[a]? = some x → s.actors[b]? = some y → y.alive = true → b < a → y.maker = x.maker →
    s.actors[c]? = some z → z.alive = true → Under (makers s) a z.maker → z.worker ≠ y.worker

theorem Early.init (n : Nat) : Early (State.init n) := by
  constructor <;> intros <;> simp_all [State.init]

theorem makers_le {s : State} (hi : Inv s) (c m : Nat) (h : (makers s)[c]? = some m) : m ≤ c := by
  simp only [makers, List.getElem?_map, Option.map_eq_some_iff] at h
  obtain ⟨x, hx, rfl⟩ := h
  exact hi.maker c x hx

theorem early_create {s s' : State} {p : Nat} (hi : Inv s) (he : Early s) (h : s.step (.create p) = some s') : Early s' := by
  obtain ⟨hr, rfl | ⟨w, hf, hb, ha, hlen, -, hp, hm⟩⟩ := step_create hi.len h
  · exact he
  have hpl : p ≤ s.actors.length := by have := hi.len; omega
  have hms : makers s' = makers s ++ [p] := by simp [makers, ha]
  have hml : (makers s).length = s.actors.length := by simp [makers]
  have hmk := makers_le hi
  have keep : ∀ k i, k ≠ s.actors.length + 1 → mark s k i = some true → mark s' k i = some true := by
    intro k i hk ht
    rw [hm, if_neg hk]
    split
    · rfl
    · exact ht
  constructor
  · intro a b k x y hx hy h2 hba hyx hu hk
    rw [ha] at hx hy hk
    rw [hms] at hu
    simp only [List.length_append, List.length_cons, List.length_nil] at hk
    rcases lookup hx with ⟨hx, hlt⟩ | ⟨rfl, rfl⟩
    · rcases lookup hy with ⟨hy, _⟩ | ⟨rfl, rfl⟩
      · by_cases hkl : k ≤ s.actors.length
        · exact keep _ _ (by omega) (he.early a b k x y hx hy h2 hba hyx (under_old hmk hu (by omega)) hkl)
        · have hke : k = s.actors.length + 1 := by omega
          rw [hm, if_pos hke]
          rcases under_new hmk (by omega) (by omega) hu with hu | ⟨_, hu⟩
          · exfalso
            cases hu with
            | self => omega
            | kid hc _ => have := (List.getElem?_eq_some_iff.1 hc).1; omega
          · exact he.early a b p x y hx hy h2 hba hyx hu hpl
      · omega
    · rcases lookup hy with ⟨hy, _⟩ | ⟨rfl, rfl⟩
      · have hke : k = s.actors.length + 1 := by
          cases hu with
          | self => rfl
          | kid hc hu =>
            rename_i c m
            exfalso
            have aux : ∀ q, Under (makers s ++ [p]) s.actors.length q → s.actors.length + 1 ≤ q := by
              intro q hq
              induction hq with
              | self => exact Nat.le_refl _
              | kid hc _ ih =>
                rename_i c m _
                rcases Nat.lt_or_ge c (makers s).length with hl | hl
                · rw [List.getElem?_append_left hl] at hc
                  have := hmk _ _ hc; omega
                · omega
            have h1 := aux m hu
            rcases Nat.lt_or_ge c (makers s).length with hl | hl
            · rw [List.getElem?_append_left hl] at hc
              have := hmk _ _ hc; omega
            · have hcl := (List.getElem?_eq_some_iff.1 hc).1
              simp only [List.length_append, List.length_cons, List.length_nil] at hcl
              have hce : c = (makers s).length := by omega
              subst hce
              rw [List.getElem?_append_right (Nat.le_refl _)] at hc
              simp only [Nat.sub_self, List.getElem?_cons_zero, Option.some.injEq] at hc
              omega
        rw [hm, if_pos hke]
        simp only at hyx
        rw [← hyx]
        exact hi.held b y hy h2
      · omega
  · intro a b c x y z hx hy h2 hba hyx hz h3 hu
    rw [ha] at hx hy hz
    rw [hms] at hu
    have hzm : z.maker ≤ s.actors.length := by
      rcases lookup hz with ⟨hz, hlt⟩ | ⟨rfl, rfl⟩
      · have := hi.maker c z hz; omega
      · exact hpl
    have hu := under_old hmk hu (by omega)
    rcases lookup hy with ⟨hy, hbl⟩ | ⟨rfl, rfl⟩
    · rcases lookup hx with ⟨hx, hlt⟩ | ⟨rfl, rfl⟩
      · rcases lookup hz with ⟨hz, _⟩ | ⟨rfl, rfl⟩
        · exact he.cousin a b c x y z hx hy h2 hba hyx hz h3 hu
        · intro e
          have := he.early a b p x y hx hy h2 hba hyx hu hpl
          simp only at e
          rw [← e, hf] at this
          cases this
      · exfalso
        have aux : ∀ q, Under (makers s) s.actors.length q → s.actors.length + 1 ≤ q := by
          intro q hq
          induction hq with
          | self => exact Nat.le_refl _
          | kid hc _ ih => have := hmk _ _ hc; omega
        have := aux _ hu
        omega
    · have := (List.getElem?_eq_some_iff.1 hx).1
      simp only [List.length_append, List.length_cons, List.length_nil] at this
      omega

theorem early_call {s s' : State} {p : Nat} (he : Early s) (h : s.step (.call p) = some s') : Early s' := by
  obtain ⟨ha, hl, hm, -⟩ := step_call h
  have hms : makers s' = makers s := by simp [makers, ha]
  constructor
  · simp only [hm, ha, hms]; exact he.early
  · simp only [ha, hms]; exact he.cousin

theorem early_drop {s s' : State} {a : Nat} (hi : Inv s) (he : Early s) (h : s.step (.drop a) = some s') : Early s' := by
  obtain ⟨x0, hx0, hal0, hkid, ha, hl, -, hm'⟩ := step_drop h
  have hm := fun k i => hm' k i (by rw [hi.held a x0 hx0 hal0]; rfl)
  have hlt0 : a < s.actors.length := (List.getElem?_eq_some_iff.1 hx0).1
  have back : ∀ {b : Nat} {y : Place}, s'.actors[b]? = some y → ∃ y', s.actors[b]? = some y' ∧ y'.maker = y.maker ∧ y'.worker = y.worker ∧
      (y.alive = true → y'.alive = true) := by
    intro b y hy
    rw [ha, List.getElem?_set] at hy
    split at hy
    · rename_i hab; subst hab
      simp only [Option.some.injEq] at hy; subst hy
      exact ⟨x0, hx0, rfl, rfl, by simp⟩
    · exact ⟨y, hy, rfl, rfl, id⟩
  have hms : makers s' = makers s := by
    apply List.ext_getElem?
    intro c
    simp only [makers, ha, List.getElem?_map, List.getElem?_set]
    split
    · rename_i hc; subst hc; simp [hx0]
    · rfl
  have hln : s'.actors.length = s.actors.length := by rw [ha]; simp
  constructor
  · intro a' b p x y hx hy h2 hba hyx hu hp
    obtain ⟨x', hx', ex, _, _⟩ := back hx
    obtain ⟨y', hy', ey, wy, ly⟩ := back hy
    rw [hms] at hu
    rw [hm]
    split
    · rename_i hc
      exact absurd (by rw [wy]; exact hc.2.symm)
        (he.cousin a' b a x' y' x0 hx' hy' (ly h2) hba (by rw [ey, ex]; exact hyx) hx0 hal0 (hc.1 ▸ hu))
    · rw [← wy]
      exact he.early a' b p x' y' hx' hy' (ly h2) hba (by rw [ey, ex]; exact hyx) hu (by omega)
  · intro a' b c x y z hx hy h2 hba hyx hz h3 hu
    obtain ⟨x', hx', ex, _, _⟩ := back hx
    obtain ⟨y', hy', ey, wy, ly⟩ := back hy
    obtain ⟨z', hz', ez, wz, lz⟩ := back hz
    rw [hms] at hu
    rw [← wz, ← wy]
    exact he.cousin a' b c x' y' z' hx' hy' (ly h2) hba (by rw [ey, ex]; exact hyx) hz' (lz h3) (ez ▸ hu)

theorem early_run (os : List Op) : ∀ {s s' : State}, Inv s → Early s → s.run os = some s' → Early s' := by
  induction os with
  | nil => intro s s' _ he h; simp only [State.run, Option.some.injEq] at h; exact h ▸ he
  | cons o os ih =>
    intro s s' hi he h
    simp only [State.run, Option.bind_eq_some_iff] at h
    obtain ⟨u, hu, h⟩ := h
    cases o with
    | create p => exact ih (inv_create hi hu) (early_create hi he hu) h
    | call p => exact ih (inv_call hi hu) (early_call he hu) h
    | drop a => exact ih (inv_drop hi hu) (early_drop hi he hu) h

theorem grab_eq {q : Pool} {w : Nat} (hf : q.grabbed[w]? = some false) (hb : ∀ i < w, q.grabbed[i]? = some true) :
    ∃ q', q.grab = some (w, q') := by
  cases hg : q.grab with
  | none => exact absurd hf (grab_none hg w)
  | some r =>
    obtain ⟨v, q'⟩ := r
    have h1 := (grab_some hg).1
    simp only at h1
    rcases Nat.lt_trichotomy v w with hv | hv | hv
    · have := hb v hv; rw [h1] at this; cases this
    · exact ⟨q', by rw [hv]⟩
    · have := grab_first hg w hv; rw [hf] at this; cases this

/-- The first actor of a process gets the worker of the process's own actor. -/
theorem create_first {s : State} (hi : Inv s) {a : Nat} {x : Place} (hx : s.actors[a]? = some x) (hal : x.alive = true)
    (hk : ∀ y ∈ s.actors, y.maker = a + 1 → y.alive = false) :
    ∃ s', s.step (.create (a + 1)) = some s' ∧ s'.actors = s.actors ++ [⟨a + 1, x.worker, true⟩] := by
  have hl := (List.getElem?_eq_some_iff.1 hx).1
  have hf : mark s (a + 1) x.worker = some false := by
    rcases hi.own a x hx hal with h | ⟨b, y, hy, h1, h2, h3⟩
    · exact h
    · rw [hk y (List.mem_of_getElem? hy) h2] at h1; cases h1
  have hb := fun i h => hi.below a x i hx hal h
  have hq := List.getElem?_eq_getElem (l := s.pools) (i := a + 1) (by have := hi.len; omega)
  simp only [mark, hq, Option.bind_some] at hf hb
  obtain ⟨q', hq'⟩ := grab_eq hf hb
  refine ⟨_, by simp only [State.step, hq, hq', State.runs, hx]; simp [hal]; rfl, rfl⟩

theorem run_append (os ps : List Op) : ∀ {s u : State}, s.run os = some u → s.run (os ++ ps) = u.run ps := by
  induction os with
  | nil => intro s u h; simp only [State.run, Option.some.injEq] at h; subst h; rfl
  | cons o os ih =>
    intro s u h
    simp only [State.run, Option.bind_eq_some_iff] at h
    obtain ⟨v, hv, h⟩ := h
    simp only [List.cons_append, State.run, hv, Option.bind_some]
    exact ih h

/-- The makers of all actors were named in the history. -/
theorem run_main (os : List Op) : ∀ {s s' : State}, (∀ y ∈ s.actors, y.maker = 0) → (∀ p, Op.create p ∈ os → p = 0) → s.run os = some s' →
    ∀ y ∈ s'.actors, y.maker = 0 := by
  induction os with
  | nil => intro s s' hz _ h; simp only [State.run, Option.some.injEq] at h; exact h ▸ hz
  | cons o os ih =>
    intro s s' hz hp h
    simp only [State.run, Option.bind_eq_some_iff] at h
    obtain ⟨u, hu, h⟩ := h
    refine ih ?_ (fun p h => hp p (List.mem_cons_of_mem _ h)) h
    cases o with
    | create p =>
      have hp0 := hp p List.mem_cons_self
      simp only [State.step] at hu
      split at hu
      · split at hu
        · simp at hu
        · split at hu
          · simp only [Option.some.injEq] at hu; exact hu ▸ hz
          · simp only [Option.some.injEq] at hu; subst hu
            intro y hy
            simp only [List.mem_append, List.mem_singleton] at hy
            rcases hy with hy | rfl
            · exact hz y hy
            · exact hp0
      · simp at hu
    | call p => rw [(step_call hu).1]; exact hz
    | drop a =>
      obtain ⟨x, hx, _, _, ha, _⟩ := step_drop hu
      intro y hy
      rw [ha] at hy
      rcases List.mem_or_eq_of_mem_set hy with hy | rfl
      · exact hz y hy
      · exact hz x (List.mem_of_getElem? hx)

end Verif.PympPlaces
