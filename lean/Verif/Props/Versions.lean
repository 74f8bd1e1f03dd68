import Verif.Lemmas.Versions
import Verif.Props.Config

/-! Properties of decisions by version and of the command line of spawned processes (C54, C59, C77, C83). -/
namespace Verif.Props
open Verif.Versions Verif.Spec
open Verif.Ids (Str decimal)

/-! ### C54 -/

/-- The text of an MPICH library: some lines, then the line with the version, then more lines. -/
structure MpichText (library : Str) (v : List Nat) : Prop where
  intro ::
  shape : ∃ (pre post : List Str) (start : Str) (blank : Char), library = lines (pre ++ (start ++ blank :: versionText v) :: post) ∧
    (blank = ' ' ∨ blank = '\t') ∧ ['M', 'P', 'I', 'C', 'H', ' ', 'V', 'e', 'r', 's', 'i', 'o', 'n', ':'] <:+: start ∧ '\n' ∉ start ∧
    (∀ l ∈ pre ++ post, '\n' ∉ l) ∧ (∀ l ∈ pre, ¬ ['M', 'P', 'I', 'C', 'H', ' ', 'V', 'e', 'r', 's', 'i', 'o', 'n', ':'] <:+: l)

/-- What the decision should be for an MPICH of version `v`. -/
def decision (s : Setup) (v : List Nat) : Prop := s.enabled = true ∧ 3 ≤ s.standard ∧ ¬ (s.spawn = true ∧ Older v [4, 2, 0])

/-- **C54**, full claim for MPICH: for every version text of numeric components the decision is made as described. -/
def C54_full : Prop := ∀ (s : Setup) (v : List Nat), v ≠ [] → MpichText s.library v →
  (decision s v → sharedMemory s = some true) ∧ (¬ decision s v → sharedMemory s = some false)

theorem C54_version_read (library : Str) (v : List Nat) (h : MpichText library v) : mpichVersion library = some (versionText v) := by
  obtain ⟨pre, post, start, blank, rfl, hb, hm, hn, hl, hp⟩ := h.shape
  have hline : ∀ l ∈ pre ++ (start ++ blank :: versionText v) :: post, '\n' ∉ l := by
    intro l hl'
    simp only [List.mem_append, List.mem_cons] at hl'
    rcases hl' with h1 | rfl | h1
    · exact hl l (by simp [h1])
    · simp only [List.mem_append, List.mem_cons, not_or]
      refine ⟨hn, ?_, versionText_no (by decide) (by decide)⟩
      rcases hb with rfl | rfl <;> decide
    · exact hl l (by simp [h1])
  simp only [mpichVersion]
  rw [splitOn_lines _ (by simp) hline, List.filter_append]
  have hpre : pre.filter (hasPart marker) = [] := by
    rw [List.filter_eq_nil_iff]
    intro l hl' hh
    exact hp l hl' ((hasPart_iff _ _).1 hh)
  have hhas : hasPart marker (start ++ blank :: versionText v) = true := by
    rw [hasPart_iff]
    obtain ⟨x, y, hxy⟩ := hm
    exact ⟨x, y ++ blank :: versionText v, by rw [← hxy]; simp [marker]⟩
  rw [hpre, List.nil_append, List.filter_cons_of_pos hhas]
  simp only [List.head?_cons, Option.map_some]
  congr 1
  rw [List.map_append, List.map_cons]
  have hbl : (if blank = '\t' then ' ' else blank) = ' ' := by rcases hb with rfl | rfl <;> decide
  rw [hbl]
  have hv : (versionText v).map (fun c => if c = '\t' then ' ' else c) = versionText v := by
    conv => rhs; rw [← List.map_id (versionText v)]
    apply List.map_congr_left
    intro c hc
    have : c ≠ '\t' := fun e => versionText_no (c := '\t') (by decide) (by decide) (e ▸ hc)
    simp [this]
  rw [hv]
  exact splitOn_last _ _ (versionText_no (by decide) (by decide))

theorem mpichText_name {library : Str} {v : List Nat} (h : MpichText library v) : hasPart mpichName library = true := by
  obtain ⟨pre, post, start, blank, rfl, hb, ⟨x, y, hxy⟩, -⟩ := h.shape
  rw [hasPart_iff]
  have h1 : mpichName <:+: start := ⟨x, [' ', 'V', 'e', 'r', 's', 'i', 'o', 'n', ':'] ++ y, by rw [← hxy]; simp [mpichName]⟩
  have h2 : ∀ (ls : List Str) (l : Str), l ∈ ls → l <:+: lines ls := by
    intro ls l hl
    induction ls with
    | nil => cases hl
    | cons a ls ih =>
      cases ls with
      | nil => simp only [List.mem_singleton] at hl; subst hl; exact List.infix_refl _
      | cons b ls =>
        simp only [List.mem_cons] at hl ih
        simp only [lines]
        rcases hl with rfl | hl
        · exact (List.prefix_append _ _).isInfix
        · exact (ih hl).trans ((List.suffix_cons _ _).isInfix.trans (List.suffix_append _ _).isInfix)
  exact h1.trans ((List.prefix_append start (blank :: versionText v)).isInfix.trans (h2 _ _ (by simp)))

/-- The decision for MPICH versions with at least three components. -/
theorem C54_mpich_partial (s : Setup) (v : List Nat) (hv : 3 ≤ v.length) (h : MpichText s.library v) :
    (decision s v → sharedMemory s = some true) ∧ (¬ decision s v → sharedMemory s = some false) := by
  have hne : v ≠ [] := by intro e; simp [e] at hv
  have hc : checkMpich s.library [4, 2, 0] = some (tupleGe v [4, 2, 0]) := by
    simp [checkMpich, C54_version_read _ _ h, versionTuple_text v hne]
  have hge := tupleGe_iff v [4, 2, 0] (by simpa using hv)
  unfold decision sharedMemory
  simp only [mpichText_name h, Bool.true_and, hc]
  cases hen : s.enabled with
  | false => simp
  | true =>
    by_cases hst : s.standard < 3
    · simp only [hst, Bool.not_true, Bool.false_eq_true, if_false, if_true, Option.some.injEq, true_and, implies_true, and_true]
      rintro ⟨h1, -⟩; omega
    · cases hsp : s.spawn with
      | false => simp [hst]
      | true =>
        simp only [Bool.not_true, Bool.false_eq_true, if_false, hst, if_true, true_and, Option.some.injEq]
        constructor
        · rintro ⟨-, ho⟩; exact hge.2 ho
        · intro hn
          have : ¬ tupleGe v [4, 2, 0] = true := fun ht => hn ⟨by omega, hge.1 ht⟩
          simpa using this

/-- The decision for libraries whose text does not mention MPICH. -/
theorem C54_other_libraries (s : Setup) (h : ¬ ['M', 'P', 'I', 'C', 'H'] <:+: s.library) :
    sharedMemory s = some (s.enabled && decide (3 ≤ s.standard)) := by
  have : hasPart mpichName s.library = false := by
    rw [Bool.eq_false_iff]
    intro hh
    exact h ((hasPart_iff _ _).1 hh)
  unfold sharedMemory
  rw [this]
  cases s.enabled
  · simp
  · by_cases hst : s.standard < 3
    · simp [hst]
    · have : 3 ≤ s.standard := by omega
      simp [hst, this]

/-- Violated by the code: version 4.2 counts as older than 4.2.0. -/
theorem C54_short_violated : ¬ C54_full := by
  intro h
  have hl : MpichText ("MPICH Version:\t4.2".toList) [4, 2] :=
    ⟨[], [], "MPICH Version:".toList, '\t', by simp [lines, versionText, decimal, Verif.Ids.digitChar], by simp,
      ⟨[], [], by simp⟩, by decide, by simp, by simp⟩
  have hd : decision ⟨true, 4, "MPICH Version:\t4.2".toList, true⟩ [4, 2] := by
    refine ⟨rfl, by decide, ?_⟩
    rintro ⟨-, ho⟩
    rw [← versionLt_iff] at ho
    revert ho; simp [versionLt]
  have := (h ⟨true, 4, "MPICH Version:\t4.2".toList, true⟩ [4, 2] (by simp) hl).1 hd
  revert this; decide

/-- Violated by the code: a library that mentions MPICH without a line "MPICH Version:" makes the check raise, for any other
text around it. -/
theorem C54_no_version_line_violated : ∃ s : Setup, s.enabled = true ∧ 3 ≤ s.standard ∧ s.spawn = true ∧ sharedMemory s = none :=
  ⟨⟨true, 3, "MPI VERSION    : CRAY MPICH version 8.1.4".toList, true⟩, rfl, by decide, rfl, by decide⟩

example : sharedMemory ⟨true, 4, "MPICH Version:\t4.10.1\nMPICH Device:\tch4".toList, true⟩ = some true := by decide
example : sharedMemory ⟨true, 4, "MPICH Version:\t4.1.9\nMPICH Device:\tch4".toList, true⟩ = some false := by decide

/-- C54, exactly: the decision for an MPICH library is wrong if and only if the version text is "4.2" and shared memory hangs on it (it is
enabled, the standard is at least 3 and the processes are spawned). -/
theorem C54_exactly_partial (s : Setup) (v : List Nat) (hv : v ≠ []) (h : MpichText s.library v) :
    ((decision s v → sharedMemory s = some true) ∧ (¬ decision s v → sharedMemory s = some false)) ↔
      ¬ (s.enabled = true ∧ 3 ≤ s.standard ∧ s.spawn = true ∧ v = [4, 2]) := by
  have hc : checkMpich s.library [4, 2, 0] = some (tupleGe v [4, 2, 0]) := by
    simp [checkMpich, C54_version_read _ _ h, versionTuple_text v hv]
  by_cases h3 : 3 ≤ v.length
  · refine ⟨fun _ => ?_, fun _ => C54_mpich_partial s v h3 h⟩
    rintro ⟨-, -, -, rfl⟩
    simp at h3
  · unfold decision sharedMemory
    simp only [mpichText_name h, Bool.true_and, hc, ← versionLt_iff]
    cases s.enabled with
    | false => simp
    | true =>
      by_cases hst : s.standard < 3
      · have : ¬ 3 ≤ s.standard := by omega
        simp [hst, this]
      · have hst' : 3 ≤ s.standard := by omega
        cases s.spawn with
        | false => simp [hst, hst']
        | true =>
          match v, hv, h3 with
          | [a], _, _ =>
            rcases Nat.lt_trichotomy a 4 with ha | rfl | ha
            · have : ¬ 4 < a := by omega
              have : a ≠ 4 := by omega
              simp [tupleGe, versionLt, *]
            · simp [hst, hst', tupleGe, versionLt]
            · have : ¬ a < 4 := by omega
              have : a ≠ 4 := by omega
              simp [tupleGe, versionLt, *]
          | [a, b], _, _ =>
            rcases Nat.lt_trichotomy a 4 with ha | rfl | ha
            · have : ¬ 4 < a := by omega
              have : a ≠ 4 := by omega
              simp [tupleGe, versionLt, *]
            · rcases Nat.lt_trichotomy b 2 with hb | rfl | hb
              · have : ¬ 2 < b := by omega
                have : b ≠ 2 := by omega
                simp [tupleGe, versionLt, *]
              · simp [hst, hst', tupleGe, versionLt]
              · have : ¬ b < 2 := by omega
                have : b ≠ 2 := by omega
                simp [tupleGe, versionLt, *]
            · have : ¬ a < 4 := by omega
              have : a ≠ 4 := by omega
              simp [tupleGe, versionLt, *]
          | _ :: _ :: _ :: _, _, h3 => simp at h3

example : sharedMemory ⟨true, 4, "MPICH Version:\t4".toList, true⟩ = some false := by decide
example : sharedMemory ⟨true, 4, "MPICH Version:\t5.0".toList, true⟩ = some true := by decide

/-! ### C59 -/

/-- **C59**: the decision for every combination of installed packages and versions; `none` is the error. -/
theorem C59_best_installed (i : Installed) :
    (∀ v, i.mpi4py = some v → (Older v [3, 0, 3] → defaultBackend i = none) ∧ (¬ Older v [3, 0, 3] → defaultBackend i = some .mpi)) ∧
    (i.mpi4py = none → ∀ v, i.ray = some v →
      (Older v [1, 4, 0] → defaultBackend i = none) ∧ (¬ Older v [1, 4, 0] → defaultBackend i = some .ray)) ∧
    (i.mpi4py = none → i.ray = none → ∀ v w, i.dask = some v → i.distributed = some w →
      (Older v [2, 22, 0] ∨ Older w [2, 22, 0] → defaultBackend i = none) ∧
      (¬ (Older v [2, 22, 0] ∨ Older w [2, 22, 0]) → defaultBackend i = some .dask)) ∧
    (i.mpi4py = none → i.ray = none → (i.dask = none ∨ i.distributed = none) → defaultBackend i = some .pymp) := by
  refine ⟨?_, ?_, ?_, ?_⟩
  · intro v hv
    simp only [defaultBackend, hv, ← versionLt_iff]
    constructor <;> intro h <;> simp [h]
  · intro h1 v hv
    simp only [defaultBackend, h1, hv, ← versionLt_iff]
    constructor <;> intro h <;> simp [h]
  · intro h1 h2 v w hv hw
    simp only [defaultBackend, h1, h2, hv, hw, ← versionLt_iff, ← Bool.or_eq_true]
    constructor <;> intro h <;> simp [h]
  · intro h1 h2 h3
    simp only [defaultBackend, h1, h2]
    rcases h3 with h3 | h3
    · rw [h3]
    · rw [h3]
      split
      · rename_i hx; cases hx
      · rfl

/-- Without a configured backend a read of the parameter gives exactly this default, or raises. -/
theorem C59_read (T : Config.PyText) (i : Installed) (name : Backend → String) :
    (Config.getValue T ⟨.str, none, (defaultBackend i).map fun b => .str (name b)⟩ (.init none)).1 =
      match defaultBackend i with
      | some b => .ok (.str (name b))
      | none => .error := by
  cases h : defaultBackend i <;> simp [Config.getValue, Config.fill, Config.State.init, Config.allowed]

example : defaultBackend ⟨none, some [2, 9], some [2023], none⟩ = some .ray := by simp [defaultBackend, versionLt]
example : defaultBackend ⟨some [3, 0], some [2, 9], none, none⟩ = none := by simp [defaultBackend, versionLt]

/-! ### C77 -/

theorem xoption_true (name : Str) (h : '=' ∉ name) : xoption name = (name, none) := by
  induction name with
  | nil => rfl
  | cons c t ih =>
    simp only [List.mem_cons, not_or] at h
    have hc : c ≠ '=' := fun e => h.1 e.symm
    simp [xoption, hc, ih h.2]

theorem xoption_value (name v : Str) (h : '=' ∉ name) : xoption (name ++ '=' :: v) = (name, some v) := by
  induction name with
  | nil => simp [xoption]
  | cons c t ih =>
    simp only [List.mem_cons, not_or] at h
    have hc : c ≠ '=' := fun e => h.1 e.symm
    simp [xoption, hc, ih h.2]

theorem understand_group (a : Char) (t : Str) (args : List Str) (hW : a ≠ 'W') (hX : a ≠ 'X') :
    understand (('-' :: a :: t) :: args) =
      { understand args with count := fun c => (a :: t).count c + (understand args).count c } := by
  rw [understand]
  · intro t' h; injection h with h _; exact hW h
  · intro t' h; injection h with h _; exact hX h

theorem understand_flags (m : List (String × Char)) (flags : String → Int) (rest : List Str)
    (hW : 'W' ∉ m.map (·.2)) (hX : 'X' ∉ m.map (·.2)) (c : Char) :
    let u := understand ((m.map fun p => flagArg p.2 (flags p.1)).flatten ++ rest)
    u.count c = (m.map fun p => if p.2 = c ∧ c ≠ 'i' then (flags p.1).toNat else 0).sum + (understand rest).count c ∧
      u.warnings = (understand rest).warnings ∧ u.xoptions = (understand rest).xoptions := by
  induction m with
  | nil => simp
  | cons p ls ih =>
    obtain ⟨name, a⟩ := p
    simp only [List.map_cons, List.mem_cons, not_or] at hW hX
    have ih := ih hW.2 hX.2
    simp only [List.flatten_cons, List.append_assoc, List.map_cons, List.sum_cons]
    by_cases hi : a = 'i'
    · subst hi
      have : flagArg 'i' (flags name) = [] := by simp [flagArg]
      rw [this, List.nil_append]
      refine ⟨?_, ih.2⟩
      rw [ih.1]
      by_cases hc : 'i' = c
      · subst hc; simp
      · simp [hc]
    · generalize flags name = f
      by_cases hf : 0 < f
      · obtain ⟨n, hn⟩ : ∃ n, f.toNat = n + 1 := ⟨f.toNat - 1, by omega⟩
        have : flagArg a f = ['-' :: List.replicate (n + 1) a] := by simp [flagArg, hi, hf, hn]
        have haW : a ≠ 'W' := fun e => hW.1 e.symm
        have haX : a ≠ 'X' := fun e => hX.1 e.symm
        rw [this, List.singleton_append, List.replicate_succ, understand_group _ _ _ haW haX]
        refine ⟨?_, ih.2⟩
        show List.count c (a :: List.replicate n a) + _ = _
        rw [ih.1, ← List.replicate_succ, List.count_replicate, hn]
        by_cases hac : a = c
        · subst hac; simp [hi]; omega
        · simp [hac]
      · have : flagArg a f = [] := by simp [flagArg, hi, Int.not_lt.1 hf]
        rw [this, List.nil_append]
        refine ⟨?_, ih.2⟩
        rw [ih.1]
        have : f.toNat = 0 := by omega
        simp [this]

theorem understand_warnings (ws : List Str) (rest : List Str) :
    understand (ws.map (fun w => '-' :: 'W' :: w) ++ rest) =
      { understand rest with warnings := ws ++ (understand rest).warnings } := by
  induction ws with
  | nil => rfl
  | cons w ws ih => simp [understand, ih]

theorem understand_xoptions (xs : List (Str × Option Str)) (h : ∀ x ∈ xs, '=' ∉ x.1) :
    understand (xs.map xArg) = ⟨fun _ => 0, [], xs⟩ := by
  induction xs with
  | nil => rfl
  | cons x xs ih =>
    obtain ⟨name, v⟩ := x
    have hn := h (name, v) (by simp)
    simp only [List.map_cons]
    cases v with
    | none => simp [understand, xArg, ih (fun y hy => h y (by simp [hy])), xoption_true name hn]
    | some v => simp [understand, xArg, ih (fun y hy => h y (by simp [hy])), xoption_value name v hn]

/-- **C77**: what the interpreter of a spawned process understands from the command line is what the main process was started
with: every flag except interactive mode as often, the warning options and the extended options in the same order. Names of
extended options have no `=`. -/
theorem C77_round_trip (i : Interpreter) (hx : ∀ x ∈ i.xoptions, '=' ∉ x.1) :
    let u := understand (pyFlags i)
    (∀ c, u.count c = match flagOfLetter c with | some name => (i.flags name).toNat | none => 0) ∧
    u.warnings = i.warnings ∧ u.xoptions = i.xoptions := by
  intro u
  have h := fun c => understand_flags flagMap i.flags (i.warnings.map (fun w => '-' :: 'W' :: w) ++ i.xoptions.map xArg)
    (by decide) (by decide) c
  have hw := understand_warnings i.warnings (i.xoptions.map xArg)
  rw [understand_xoptions i.xoptions hx] at hw
  simp only [hw, List.append_nil] at h
  have hu : u = understand ((flagMap.map fun p => flagArg p.2 (i.flags p.1)).flatten ++ (i.warnings.map (fun w => '-' :: 'W' :: w) ++
    i.xoptions.map xArg)) := by
    simp only [u, pyFlags, List.append_assoc]
  rw [hu]
  refine ⟨fun c => ?_, (h 'a').2.1, (h 'a').2.2⟩
  rw [(h c).1]
  generalize hq : flagOfLetter c = q
  unfold flagOfLetter at hq
  split at hq
  all_goals
    subst hq
    try (simp [flagMap]; done)
  rename_i h1 h2 h3 h4 h5 h6 h7 h8 h9 h10 h11 h12
  by_cases hi : c = 'i'
  · simp [hi, flagMap]
  · have e : ∀ {x : Char}, (c = x → False) → ¬ x = c := fun h e => h e.symm
    simp [flagMap, e h1, e h2, e h3, e h4, e h5, e h6, e h7, e h8, e h9, e h10, e h11, e h12, e hi]

example : flagOfLetter 's' = some "no_user_site" ∧ flagOfLetter 'i' = none := by decide
example : pyFlags ⟨fun n => if n = "optimize" then 2 else if n = "verbose" then 3 else if n = "interactive" ∨ n = "no_site" then 1 else 0,
      ["error".toList], [("dev".toList, none), ("a".toList, some "b".toList)]⟩ =
    ["-OO".toList, "-S".toList, "-vvv".toList, "-Werror".toList, "-Xdev".toList, "-Xa=b".toList] := by decide

/-! ### C83 -/

theorem sum_shares (q r n : Nat) : ((List.range n).map fun i => q + (if i < r then 1 else 0)).sum = n * q + min n r := by
  induction n with
  | zero => simp
  | succ n ih =>
    rw [List.range_succ, List.map_append, List.sum_append, ih]
    simp only [List.map_cons, List.map_nil, List.sum_cons, List.sum_nil, Nat.add_zero, Nat.succ_mul]
    split <;> omega

/-- **C83**: the slots of the hosts add up to the number of processes (the spawned ones and the root), whatever the number of
hosts. -/
theorem C83_sum (slots hosts : Nat) (h : 0 < hosts) : (slotsPerHost slots hosts).sum = slots := by
  rw [slotsPerHost, sum_shares]
  have := Nat.mod_lt slots h
  have := Nat.div_add_mod slots hosts
  rw [Nat.min_eq_right (by omega)]
  exact this

/-- The load is even: no host gets two slots more than another. -/
theorem C83_even (slots hosts a b : Nat) (ha : a ∈ slotsPerHost slots hosts) (hb : b ∈ slotsPerHost slots hosts) : a ≤ b + 1 := by
  simp only [slotsPerHost, List.mem_map] at ha hb
  obtain ⟨i, -, rfl⟩ := ha
  obtain ⟨j, -, rfl⟩ := hb
  split <;> split <;> omega

/-- Every host gets a slot if there are at least as many processes as hosts. -/
theorem C83_nonzero (slots hosts : Nat) (h : hosts ≤ slots) : ∀ a ∈ slotsPerHost slots hosts, 0 < a := by
  intro a ha
  simp only [slotsPerHost, List.mem_map, List.mem_range] at ha
  obtain ⟨i, hi, rfl⟩ := ha
  have : 0 < slots / hosts := Nat.div_pos h (by omega)
  omega

example : slotsPerHost 11 3 = [4, 4, 3] := by decide

end Verif.Props
