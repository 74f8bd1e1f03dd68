import Verif.Lemmas.Spawn

/-! What the classes of the main process hold, and what those of a spawned process hold after its program. -/
namespace Verif.Spawn
open Verif.Config Verif.Spec

/-! ## One class -/

/-- A class that is unset, or holds its default or a value of its type, and tells which. -/
def Good (p : Param) (x : State) : Prop :=
  (x.value = none ∧ x.source = none) ∨
    ∃ v src, x.value = some v ∧ x.source = some src ∧ (src = .default → p.default = some v) ∧ (src ≠ .default → Typed p.kind v)

/-- What a read gives. -/
def reads (T : PyText) (p : Param) (x : State) : Result PyVal := (getValue T p x).1

theorem param_choices (c : Nat) (n : Name) : (param c n).choices = none := by cases n <;> rfl

theorem param_kind (c : Nat) (n : Name) : (param c n).kind ≠ .str := by cases n <;> simp [param]

theorem param_default (c c' : Nat) (n : Name) (h : n = .cpus → c = c') : (param c n).default = (param c' n).default := by
  cases n <;> first | rfl | (rw [h rfl])

theorem getValue_set {T : PyText} {p : Param} {x : State} {v : PyVal} (hc : p.choices = none) (h : x.value = some v) :
    getValue T p x = (.ok v, x) := by
  simp [getValue, fill, h, allowed, hc]

theorem decode_typed {T : PyText} {k : Kind} {raw : String} {v : PyVal} (hk : k ≠ .str) (h : decode T k raw = some v) : Typed k v := by
  cases k with
  | str => exact absurd rfl hk
  | exactStr => cases h; trivial
  | bool => cases h; trivial
  | int => simp only [decode, Option.map_eq_some_iff] at h; obtain ⟨i, -, rfl⟩ := h; trivial
  | float => simp only [decode, Option.map_eq_some_iff] at h; obtain ⟨i, -, rfl⟩ := h; trivial

theorem normalize_typed {T : PyText} {k : Kind} {u v : PyVal} (hk : k ≠ .str) (hu : verify T k u = true)
    (h : normalize T k u = some v) : Typed k v := by
  cases k with
  | str => exact absurd rfl hk
  | exactStr => cases u <;> simp [verify] at hu; cases h; trivial
  | bool => cases u <;> simp [normalize] at h <;> cases h <;> trivial
  | int =>
    cases u <;> simp [normalize] at h
    · cases h; trivial
    · cases h; trivial
    · obtain ⟨i, -, rfl⟩ := h; trivial
  | float =>
    cases u <;> simp [normalize] at h
    · cases h; trivial
    · obtain ⟨i, -, rfl⟩ := h; trivial

/-- Everything about a read of a class. -/
theorem getValue_cases (T : PyText) (p : Param) (x : State) (hc : p.choices = none) (hk : p.kind ≠ .str) (hg : Good p x) :
    (getValue T p x = (.error, x) ∧ x.value = none) ∨
    ∃ v x', getValue T p x = (.ok v, x') ∧ x'.value = some v ∧ x'.env = x.env ∧ Good p x' ∧ (x.value ≠ none → x' = x) := by
  rcases hg with ⟨hv, hs⟩ | ⟨v, src, hv, hs, hd, ht⟩
  · cases he : x.env with
    | none =>
      cases hd : p.default with
      | none => exact .inl ⟨by simp [getValue, fill, hv, he, hd], hv⟩
      | some d =>
        refine .inr ⟨d, { x with value := some d, source := some .default }, by simp [getValue, fill, hv, he, hd, allowed, hc], rfl, he,
          .inr ⟨d, .default, rfl, rfl, fun _ => hd, fun h => absurd rfl h⟩, fun h => absurd hv h⟩
    | some raw =>
      by_cases hver : verify T p.kind (.str raw) = true
      · cases hde : decode T p.kind raw with
        | none => exact .inl ⟨by simp [getValue, fill, hv, he, hver, hde], hv⟩
        | some d =>
          refine .inr ⟨d, { x with value := some d, source := some .config },
            by simp [getValue, fill, hv, he, hver, hde, allowed, hc], rfl, he,
            .inr ⟨d, .config, rfl, rfl, nofun, fun _ => decode_typed hk hde⟩, fun h => absurd hv h⟩
      · exact .inl ⟨by simp [getValue, fill, hv, he, hver], hv⟩
  · exact .inr ⟨v, x, getValue_set hc hv, hv, rfl, .inr ⟨v, src, hv, hs, hd, ht⟩, fun _ => rfl⟩

theorem good_source {p : Param} {x : State} (hg : Good p x) (h : x.value ≠ none) : ∃ src, x.source = some src := by
  rcases hg with ⟨hv, -⟩ | ⟨v, src, hv, hs, -⟩
  · exact absurd hv h
  · exact ⟨src, hs⟩

theorem getSource_cases (T : PyText) (p : Param) (x : State) (hc : p.choices = none) (hk : p.kind ≠ .str) (hg : Good p x) :
    (getSource T p x = (.error, x) ∧ x.value = none) ∨
    ∃ src x', getSource T p x = (.ok src, x') ∧ x'.source = some src ∧ x'.env = x.env ∧ Good p x' ∧ (x.value ≠ none → x' = x) ∧
      getValue T p x = (reads T p x, x') := by
  rcases hg with ⟨hv, hs⟩ | ⟨v, src, hv, hs, hd, ht⟩
  · rcases getValue_cases T p x hc hk (.inl ⟨hv, hs⟩) with ⟨h, h'⟩ | ⟨v, x', h, h1, h2, h3, h4⟩
    · exact .inl ⟨by simp [getSource, hs, h], hv⟩
    · obtain ⟨src, hsrc⟩ := good_source h3 (by simp [h1])
      exact .inr ⟨src, x', by simp [getSource, hs, h, hsrc], hsrc, h2, h3, h4, by simp [reads, h]⟩
  · exact .inr ⟨src, x, by simp [getSource, hs], hs, rfl, .inr ⟨v, src, hv, hs, hd, ht⟩, fun _ => rfl, by
      simp [reads, getValue_set hc hv]⟩

theorem good_put {T : PyText} {p : Param} {x : State} (v : PyVal) (hk : p.kind ≠ .str) (hg : Good p x) : Good p (put T p v x).2 := by
  simp only [put]
  split
  · rename_i hver
    cases hn : normalize T p.kind v with
    | none => exact hg
    | some w => exact .inr ⟨w, .user, rfl, rfl, nofun, fun _ => normalize_typed hk hver hn⟩
  · exact hg

theorem put_typed {T : PyText} {k : Kind} {v : PyVal} (p : Param) (hp : p.kind = k) (ht : Typed k v) (x : State) :
    put T p v x = (.ok (), { x with value := some v, source := some .user }) := by
  subst hp
  cases hkind : p.kind <;> rw [hkind] at ht <;> cases v <;> first | (simp [Typed] at ht; done) | simp [put, hkind, verify, normalize]

/-- A read does not depend on the source. -/
theorem reads_source (T : PyText) (p : Param) (x : State) (s : Option Source) : reads T p { x with source := s } = reads T p x := by
  obtain ⟨value, source, env⟩ := x
  cases value with
  | some v => simp [reads, getValue, fill]; split <;> rfl
  | none =>
    cases env with
    | none => cases hd : p.default <;> simp [reads, getValue, fill, hd]
    | some raw =>
      by_cases hver : verify T p.kind (.str raw) = true
      · cases hde : decode T p.kind raw <;> simp [reads, getValue, fill, hver, hde]
      · simp [reads, getValue, fill, hver]

/-! ## All classes -/

theorem upd_same (s : Cfg) (n : Name) (x : State) : upd s n x n = x := by simp [upd]

theorem upd_ne (s : Cfg) (n m : Name) (x : State) (h : m ≠ n) : upd s n x m = s m := by simp [upd, h]

/-- What is left of this for the class of the pickle threshold, whose recorded source can be that of another class. -/
def Fine (x : State) : Prop := ∀ v, x.value = some v → Typed .int v

theorem good_fine {c : Nat} {x : State} (h : Good (param c .pickle) x) : Fine x := by
  intro v hv
  rcases h with ⟨h, -⟩ | ⟨w, src, hw, -, hd, ht⟩
  · rw [h] at hv; cases hv
  · rw [hw] at hv; cases hv
    by_cases hsd : src = .default
    · have := hd hsd; cases this; trivial
    · exact ht hsd

theorem getValue_fine (T : PyText) (c : Nat) (x : State) (hf : Fine x) :
    (getValue T (param c .pickle) x = (.error, x) ∧ x.value = none) ∨
    ∃ v x', getValue T (param c .pickle) x = (.ok v, x') ∧ x'.value = some v ∧ Fine x' ∧ (x.value ≠ none → x' = x) := by
  cases hv : x.value with
  | some v => exact .inr ⟨v, x, getValue_set rfl hv, hv, hf, fun _ => rfl⟩
  | none =>
    cases he : x.env with
    | none =>
      refine .inr ⟨.int 262144, { x with value := some (.int 262144), source := some .default },
        by simp [getValue, fill, hv, he, param, allowed], rfl, ?_, fun h => absurd rfl h⟩
      intro w hw; cases hw; trivial
    | some raw =>
      by_cases hver : verify T .int (.str raw) = true
      · cases hde : decode T .int raw with
        | none => exact .inl ⟨by simp [getValue, fill, hv, he, param, hver, hde], rfl⟩
        | some d =>
          refine .inr ⟨d, { x with value := some d, source := some .config },
            by simp [getValue, fill, hv, he, param, hver, hde, allowed], rfl, ?_, fun h => absurd rfl h⟩
          intro w hw; cases hw; exact decode_typed (by simp) hde
      · exact .inl ⟨by simp [getValue, fill, hv, he, param, hver], rfl⟩

/-- What holds of the classes of the main process whatever the program does: all are good, except that the recorded source of the pickle
threshold can be that of another class. -/
def Sound (c : Nat) (s : Cfg) : Prop := (∀ n, n ≠ .pickle → Good (param c n) (s n)) ∧ Fine (s .pickle)

/-- As long as the program does not disable the shared store also the class of the pickle threshold is good, at least until the shared store is
found enabled. -/
def Steady (c : Nat) (s : Cfg) : Prop := Good (param c .pickle) (s .pickle) ∨ (s .store).value = some (.bool true)

/-- What reading a class in state `x` instead of `y` must not change. -/
def Keeps (T : PyText) (c : Nat) (s s' : Cfg) : Prop :=
  (∀ n, reads T (param c n) (s' n) = reads T (param c n) (s n)) ∧
  (∀ n, n ≠ .pickle → (s n).value ≠ none → s' n = s n) ∧
  (∀ v, (s .store).value = some v → (s' .store).value = some v)

theorem keeps_refl (T : PyText) (c : Nat) (s : Cfg) : Keeps T c s s := ⟨fun _ => rfl, fun _ _ _ => rfl, fun _ h => h⟩

theorem keeps_trans {T : PyText} {c : Nat} {s t u : Cfg} (h : Keeps T c s t) (h' : Keeps T c t u) : Keeps T c s u :=
  ⟨fun n => (h'.1 n).trans (h.1 n),
   fun n hn hv => (h'.2.1 n hn (by rw [h.2.1 n hn hv]; exact hv)).trans (h.2.1 n hn hv),
   fun v hv => h'.2.2 v (h.2.2 v hv)⟩

/-- Reading one class that is good. -/
theorem keeps_upd {T : PyText} {c : Nat} {s : Cfg} {n : Name} {x : State} (hr : reads T (param c n) x = reads T (param c n) (s n))
    (hv : (s n).value ≠ none → x = s n) : Keeps T c s (upd s n x) := by
  refine ⟨fun m => ?_, fun m hm hmv => ?_, fun v h => ?_⟩
  · by_cases h : m = n
    · subst h; rw [upd_same]; exact hr
    · rw [upd_ne _ _ _ _ h]
  · by_cases h : m = n
    · subst h; rw [upd_same]; exact hv hmv
    · rw [upd_ne _ _ _ _ h]
  · by_cases h' : Name.store = n
    · subst h'; rw [upd_same, hv (by simp [h])]; exact h
    · rw [upd_ne _ _ _ _ h']; exact h

theorem sound_upd {c : Nat} {s : Cfg} {n : Name} {x : State} (hs : Sound c s) (hn : n ≠ .pickle) (hg : Good (param c n) x) :
    Sound c (upd s n x) := by
  refine ⟨fun m hm => ?_, ?_⟩
  · by_cases h : m = n
    · subst h; rw [upd_same]; exact hg
    · rw [upd_ne _ _ _ _ h]; exact hs.1 m hm
  · rw [upd_ne _ _ _ _ (Ne.symm hn)]; exact hs.2

theorem sound_pickle {c : Nat} {s : Cfg} {x : State} (hs : Sound c s) (hf : Fine x) : Sound c (upd s .pickle x) := by
  refine ⟨fun m hm => ?_, ?_⟩
  · rw [upd_ne _ _ _ _ hm]; exact hs.1 m hm
  · rw [upd_same]; exact hf

theorem reads_of {T : PyText} {p : Param} {x : State} {v : PyVal} (hc : p.choices = none) (h : x.value = some v) :
    reads T p x = .ok v := by simp [reads, getValue_set hc h]

/-- A read of a class other than the pickle threshold. -/
theorem get_regular {T : PyText} {c : Nat} {s : Cfg} {n : Name} (hs : Sound c s) (hn : n ≠ .pickle) :
    (getOf T c n s).1 = reads T (param c n) (s n) ∧ Sound c (getOf T c n s).2 ∧ Keeps T c s (getOf T c n s).2 ∧
    (∀ v, (getOf T c n s).1 = .ok v → ((getOf T c n s).2 n).value = some v) ∧
    (∀ m, m ≠ n → (getOf T c n s).2 m = s m) := by
  have hc := param_choices c n
  simp only [getOf, if_neg hn]
  rcases getValue_cases T (param c n) (s n) hc (param_kind c n) (hs.1 n hn) with ⟨h, h'⟩ | ⟨v, x', h, h1, h2, h3, h4⟩
  · rw [h]
    have hk : Keeps T c s (upd s n (s n)) := keeps_upd rfl fun _ => rfl
    exact ⟨by simp [reads, h], sound_upd hs hn (hs.1 n hn), hk, nofun, fun m hm => upd_ne _ _ _ _ hm⟩
  · rw [h]
    refine ⟨by simp [reads, h], sound_upd hs hn h3, keeps_upd ?_ h4, ?_, fun m hm => upd_ne _ _ _ _ hm⟩
    · rw [reads_of hc h1]; simp [reads, h]
    · intro w hw; cases hw; rw [upd_same]; exact h1

/-- What a read of the pickle threshold gives. -/
def pickleReads (T : PyText) (c : Nat) (s : Cfg) : Result PyVal :=
  match reads T (param c .store) (s .store) with
  | .error => .error
  | .ok on => if on = .bool true then reads T (param c .sharedThreshold) (s .sharedThreshold) else reads T (param c .pickle) (s .pickle)

theorem pickleReads_keeps {T : PyText} {c : Nat} {s s' : Cfg} (h : Keeps T c s s') : pickleReads T c s' = pickleReads T c s := by
  simp only [pickleReads, h.1]

/-- A read of the pickle threshold. -/
theorem get_pickle {T : PyText} {c : Nat} {s : Cfg} (hs : Sound c s) :
    (getOf T c .pickle s).1 = pickleReads T c s ∧ Sound c (getOf T c .pickle s).2 ∧ Keeps T c s (getOf T c .pickle s).2 ∧
    (∀ v, (getOf T c .pickle s).1 = .ok v → Typed .int v) := by
  have g1 := getValue_cases T (param c .store) (s .store) rfl (param_kind c _) (hs.1 .store (by simp))
  have g2 := getValue_cases T (param c .sharedThreshold) (s .sharedThreshold) rfl (param_kind c _) (hs.1 .sharedThreshold (by simp))
  simp only [getOf, if_true]
  rcases g1 with ⟨h, h'⟩ | ⟨on, a, h, h1, h2, h3, h4⟩
  · rw [h]
    exact ⟨by simp [pickleReads, reads, h], sound_upd hs (by simp) (hs.1 _ (by simp)), keeps_upd rfl fun _ => rfl, nofun⟩
  · have ra : reads T (param c .store) a = reads T (param c .store) (s .store) := by
      rw [reads_of rfl h1]; simp [reads, h]
    have s1 : Sound c (upd s .store a) := sound_upd hs (by simp) h3
    have k1 : Keeps T c s (upd s .store a) := keeps_upd ra h4
    rw [h]
    simp only
    by_cases hon : on = .bool true
    · subst hon
      simp only [if_true]
      rcases g2 with ⟨e, e'⟩ | ⟨v, b, e, e1, e2, e3, e4⟩
      · rw [e]
        refine ⟨by simp [pickleReads, reads, h, e], sound_upd s1 (by simp) ?_, keeps_trans k1 (keeps_upd ?_ ?_), nofun⟩
        · exact hs.1 _ (by simp)
        · rw [upd_ne _ _ _ _ (by simp)]
        · intro _; rw [upd_ne _ _ _ _ (by simp)]
      · rw [e]
        simp only
        obtain ⟨src, hsrc⟩ := good_source e3 (by simp [e1])
        have hb : getSource T (param c .sharedThreshold) b = (.ok src, b) := by simp [getSource, hsrc]
        rw [hb]
        simp only
        have rb : reads T (param c .sharedThreshold) b = reads T (param c .sharedThreshold) (s .sharedThreshold) := by
          rw [reads_of rfl e1]; simp [reads, e]
        have s2 : Sound c (upd (upd s .store a) .sharedThreshold b) := sound_upd s1 (by simp) e3
        have k2 : Keeps T c s (upd (upd s .store a) .sharedThreshold b) := by
          refine keeps_trans k1 (keeps_upd ?_ ?_)
          · rw [upd_ne _ _ _ _ (by simp)]; exact rb
          · rw [upd_ne _ _ _ _ (by simp)]; exact e4
        have hpk : upd (upd s .store a) .sharedThreshold b .pickle = s .pickle := by
          rw [upd_ne _ _ _ _ (by simp), upd_ne _ _ _ _ (by simp)]
        refine ⟨by simp [pickleReads, reads, h, e], sound_pickle s2 hs.2, keeps_trans k2 ⟨fun m => ?_, fun m hm _ => ?_, fun w hw => ?_⟩, ?_⟩
        · by_cases hm : m = .pickle
          · subst hm; rw [upd_same, reads_source, hpk]
          · rw [upd_ne _ _ _ _ hm]
        · rw [upd_ne _ _ _ _ hm]
        · rw [upd_ne _ _ _ _ (by simp)]; exact hw
        · intro w hw
          cases hw
          rcases e3 with ⟨hv, -⟩ | ⟨v', src', hv, -, hd, ht⟩
          · rw [e1] at hv; cases hv
          · rw [e1] at hv; cases hv
            by_cases hsd : src' = .default
            · have := hd hsd; cases this; trivial
            · exact ht hsd
    · simp only [if_neg hon]
      rcases getValue_fine T c (s .pickle) hs.2 with ⟨e, e'⟩ | ⟨v, b, e, e1, e3, e4⟩
      · rw [e]
        refine ⟨by simp [pickleReads, reads, h, e, hon], sound_pickle s1 hs.2, keeps_trans k1 (keeps_upd ?_ ?_), nofun⟩
        · rw [upd_ne _ _ _ _ (by simp)]
        · intro _; rw [upd_ne _ _ _ _ (by simp)]
      · rw [e]
        refine ⟨by simp [pickleReads, reads, h, e, hon], sound_pickle s1 e3, keeps_trans k1 (keeps_upd ?_ ?_), ?_⟩
        · rw [upd_ne _ _ _ _ (by simp), reads_of rfl e1]; simp [reads, e]
        · rw [upd_ne _ _ _ _ (by simp)]; exact e4
        · intro w hw; cases hw; exact e3 _ e1

/-- What a read of any class gives. -/
def readOf (T : PyText) (c : Nat) (n : Name) (s : Cfg) : Result PyVal :=
  if n = .pickle then pickleReads T c s else reads T (param c n) (s n)

theorem readOf_keeps {T : PyText} {c : Nat} {s s' : Cfg} (n : Name) (h : Keeps T c s s') : readOf T c n s' = readOf T c n s := by
  simp only [readOf, pickleReads_keeps h, h.1]

theorem get_any {T : PyText} {c : Nat} {s : Cfg} (n : Name) (hs : Sound c s) :
    (getOf T c n s).1 = readOf T c n s ∧ Sound c (getOf T c n s).2 ∧ Keeps T c s (getOf T c n s).2 := by
  by_cases hn : n = .pickle
  · subst hn
    have := get_pickle (T := T) hs
    simp only [readOf, if_true]
    exact ⟨this.1, this.2.1, this.2.2.1⟩
  · have := get_regular (T := T) hs hn
    simp only [readOf, if_neg hn]
    exact ⟨this.1, this.2.1, this.2.2.1⟩

theorem source_any {T : PyText} {c : Nat} {s : Cfg} (n : Name) (hs : Sound c s) :
    Sound c (sourceOf T c n s).2 ∧ Keeps T c s (sourceOf T c n s).2 := by
  simp only [sourceOf]
  split
  · exact ⟨hs, keeps_refl _ _ _⟩
  · have := (get_any (T := T) n hs).2
    rcases hg : getOf T c n s with ⟨_ | _, s'⟩
    · rw [hg] at this
      simp only
      split <;> exact this
    · rw [hg] at this; exact this

theorem steady_get {T : PyText} {c : Nat} {s : Cfg} (n : Name) (hs : Sound c s) (hd : Steady c s) : Steady c (getOf T c n s).2 := by
  have hk := (get_any (T := T) n hs).2.2
  rcases hd with hg | ht
  · by_cases hn : n = .pickle
    · subst hn
      simp only [getOf, if_true]
      rcases h1 : getValue T (param c .store) (s .store) with ⟨on | _, a⟩
      · simp only
        split
        · rename_i hon
          subst hon
          rcases getValue_cases T (param c .store) (s .store) rfl (param_kind c _) (hs.1 .store (by simp)) with ⟨e, -⟩ | ⟨v, a', e, e1, -⟩
          · rw [e] at h1; cases h1
          · rw [e] at h1; cases h1
            rcases getValue T (param c .sharedThreshold) (s .sharedThreshold) with ⟨v | _, b⟩
            · simp only
              rcases getSource T (param c .sharedThreshold) b with ⟨src | _, b'⟩
              · exact .inr (by simpa [upd] using e1)
              · exact .inr (by simpa [upd] using e1)
            · exact .inr (by simpa [upd] using e1)
        · left
          simp only [upd_same]
          rcases getValue_cases T (param c .pickle) (s .pickle) rfl (param_kind c _) hg with ⟨e, -⟩ | ⟨v, b, e, -, -, e3, -⟩ <;> rw [e]
          · exact hg
          · exact e3
      · left; simpa [upd] using hg
    · left; rw [(get_regular (T := T) hs hn).2.2.2.2 .pickle (Ne.symm hn)]; exact hg
  · exact .inr (hk.2.2 _ ht)

theorem steady_source {T : PyText} {c : Nat} {s : Cfg} (n : Name) (hs : Sound c s) (hd : Steady c s) : Steady c (sourceOf T c n s).2 := by
  have := steady_get (T := T) n hs hd
  simp only [sourceOf]
  split
  · exact hd
  · rcases hg : getOf T c n s with ⟨_ | _, s'⟩ <;> rw [hg] at this
    · simp only
      split <;> exact this
    · exact this

theorem good_setEnv {p : Param} {x : State} (e : Option String) (h : Good p x) : Good p { x with env := e } := h

/-- A call of the user's program. -/
theorem sound_step {T : PyText} {c : Nat} {s : Cfg} (op : Name × Op) (hs : Sound c s) : Sound c (cfgStep T c s op) := by
  obtain ⟨n, op⟩ := op
  cases op with
  | get => exact (get_any n hs).2.1
  | source => exact (source_any n hs).1
  | put v =>
    simp only [cfgStep]
    by_cases hn : n = .pickle
    · subst hn
      refine sound_pickle hs ?_
      simp only [put]
      split
      · rename_i hver
        cases hq : normalize T (param c .pickle).kind v with
        | none => exact hs.2
        | some w => intro u hu; cases hu; exact normalize_typed (param_kind c .pickle) hver hq
      · exact hs.2
    · exact sound_upd hs hn (good_put v (param_kind c _) (hs.1 n hn))
  | setEnv e =>
    simp only [cfgStep]
    by_cases hn : n = .pickle
    · subst hn; exact sound_pickle hs hs.2
    · exact sound_upd hs hn (good_setEnv e (hs.1 n hn))

theorem steady_step {T : PyText} {c : Nat} {s : Cfg} (op : Name × Op) (hs : Sound c s) (hd : Steady c s)
    (h1 : op ≠ (.store, .put (.bool false))) (h2 : op ≠ (.store, .put (.str ""))) : Steady c (cfgStep T c s op) := by
  obtain ⟨n, op⟩ := op
  cases op with
  | get => exact steady_get n hs hd
  | source => exact steady_source n hs hd
  | put v =>
    simp only [cfgStep, Steady]
    by_cases h : Name.pickle = n
    · subst h
      rw [upd_same, upd_ne _ _ _ _ (by simp)]
      exact hd.imp_left fun h' => good_put v (param_kind c _) h'
    · rw [upd_ne _ _ _ _ h]
      refine hd.imp_right fun h3 => ?_
      by_cases h' : Name.store = n
      · subst h'
        rw [upd_same]
        simp only [put]
        split
        · cases v with
          | bool b => cases b with
            | true => rfl
            | false => exact absurd rfl h1
          | str t =>
            have : t ≠ "" := fun e => h2 (by rw [e])
            simp [param, normalize, this]
          | none => exact h3
          | int i => exact h3
          | float i => exact h3
          | other i => exact h3
        · exact h3
      · rw [upd_ne _ _ _ _ h']; exact h3
  | setEnv e =>
    have e1 : ∀ m, (upd s n { s n with env := e } m).value = (s m).value := by
      intro m; by_cases h : m = n
      · subst h; rw [upd_same]
      · rw [upd_ne _ _ _ _ h]
    simp only [cfgStep, Steady]
    rw [e1]
    refine hd.imp_left fun h3 => ?_
    by_cases h : Name.pickle = n
    · subst h; rw [upd_same]; exact good_setEnv e h3
    · rw [upd_ne _ _ _ _ h]; exact h3

theorem sound_init (c : Nat) (environ : Str → Option Str) : Sound c (.init environ) :=
  ⟨fun _ _ => .inl ⟨rfl, rfl⟩, fun _ h => by cases h⟩

theorem steady_init (c : Nat) (environ : Str → Option Str) : Steady c (.init environ) := .inl (.inl ⟨rfl, rfl⟩)

theorem sound_run {T : PyText} {c : Nat} {s : Cfg} (ops : List (Name × Op)) (hs : Sound c s) : Sound c (cfgRun T c s ops) := by
  induction ops generalizing s with
  | nil => exact hs
  | cons op ops ih => exact ih (sound_step op hs)

theorem steady_run {T : PyText} {c : Nat} {s : Cfg} (ops : List (Name × Op)) (hs : Sound c s) (hd : Steady c s)
    (h1 : (Name.store, Op.put (.bool false)) ∉ ops) (h2 : (Name.store, Op.put (.str "")) ∉ ops) : Steady c (cfgRun T c s ops) := by
  induction ops generalizing s with
  | nil => exact hd
  | cons op ops ih =>
    simp only [List.mem_cons, not_or] at h1 h2
    exact ih (sound_step op hs) (steady_step op hs hd (Ne.symm h1.1) (Ne.symm h2.1)) h1.2 h2.2

theorem steady_emit {T : PyText} {F : FloatText} {c : Nat} {n : Name} {s s' : Cfg} {ts : List Str} (hs : Sound c s) (hd : Steady c s)
    (h : emit T F c n s = some (ts, s')) : Steady c s' := by
  have h1 := source_any (T := T) n hs
  have hd1 := steady_source (T := T) n hs hd
  simp only [emit] at h
  rcases hq : sourceOf T c n s with ⟨src | _, t⟩ <;> rw [hq] at h h1 hd1
  · simp only at h h1 hd1
    have hd2 := steady_get (T := T) n h1.1 hd1
    split at h
    · cases h; exact hd1
    · rcases hg : getOf T c n t with ⟨v | _, u⟩ <;> rw [hg] at h hd2
      · cases h; exact hd2
      · cases h
  · cases h

theorem sound_emit {T : PyText} {F : FloatText} {c : Nat} {n : Name} {s s' : Cfg} {ts : List Str} (hs : Sound c s)
    (h : emit T F c n s = some (ts, s')) : Sound c s' := by
  have h1 := source_any (T := T) n hs
  simp only [emit] at h
  rcases hq : sourceOf T c n s with ⟨src | _, t⟩ <;> rw [hq] at h h1
  · simp only at h h1
    have h2 := (get_any (T := T) n h1.1).2.1
    split at h
    · cases h; exact h1.1
    · rcases hg : getOf T c n t with ⟨v | _, u⟩ <;> rw [hg] at h h2
      · cases h; exact h2
      · cases h
  · cases h

theorem steady_emitAll {T : PyText} {F : FloatText} {c : Nat} : ∀ (ns : List Name) {s sf : Cfg} {ts : List Str}, Sound c s → Steady c s →
    emitAll T F c ns s = some (ts, sf) → Steady c sf
  | [], _, _, _, _, hd, h => by cases h; exact hd
  | n :: ns, s, sf, ts, hs, hd, h => by
    simp only [emitAll] at h
    obtain ⟨⟨ts1, s1⟩, he, h⟩ := Option.bind_eq_some_iff.1 h
    obtain ⟨⟨ts2, s2⟩, h2, h3⟩ := Option.map_eq_some_iff.1 h
    cases h3
    exact steady_emitAll ns (sound_emit hs he) (steady_emit hs hd he) h2

end Verif.Spawn
