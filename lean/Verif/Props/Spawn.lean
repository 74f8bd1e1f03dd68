import Verif.Lemmas.SpawnRun
import Verif.Props.Config

/-! Properties of the program of spawned processes (C96, C97). -/
namespace Verif.Props
open Verif.Config Verif.Spawn Verif.Spec

/-- Texts of floats for examples: whole numbers. -/
def plainFloat : FloatText where
  shown c := Nat.toDigits 10 c ++ ['.', '0']
  read t := readNat (t.take (t.length - 2))
  read_shown c := by simp [readNat_digits]
  chars c x hx := by
    rcases List.mem_append.1 hx with h | h
    · exact .inl (Nat.isDigit_of_mem_toDigits (by decide) (by decide) h)
    · simp at h; rcases h with rfl | rfl
      · exact .inr (.inl rfl)
      · exact .inl (by decide)
  not_int c := .inl (by simp)

/-- The text of an environment variable given as a text or a whole number. -/
def variableText : EnvVal → Str
  | .str t => t
  | .int i => (toString i).toList

theorem variableText_eq (v : EnvVal) : variableText v = v.text := by
  cases v with
  | str t => rfl
  | int i => cases i <;> simp [variableText, EnvVal.text, showInt, toString, Int.repr, Nat.repr]

/-! ### C96 -/

/-- **C96**, full claim: the spawned processes run, and they read for every parameter what the main process reads. The environment
variable of a parameter that has its default in the main process is not set in the spawned processes either. -/
def C96_full : Prop :=
  ∀ (T : PyText) (F : FloatText) (cpus cpus' rank : Nat) (environ environ' : Str → Option Str) (ops : List (Name × Op)) (text : Str)
    (s : Cfg), program T F cpus (cfgRun T cpus (.init environ) ops) none = some (text, s) →
    (∀ n, (s n).source = some .default → environ' n.var = none) →
    ∃ p, spawned T F cpus' rank environ' text = some p ∧
      ∀ n v, (getOf T cpus n s).1 = .ok v → (getOf T cpus' n p.cfg).1 = .ok v

/-- Violated by the code: the source of the pickle threshold is overwritten while the shared store is enabled. If the store is
disabled again, the value set by the user is taken for the default and not passed on. -/
theorem C96_threshold_violated : ¬ C96_full := by
  intro h
  let ops : List (Name × Op) :=
    [(.pickle, .put (.int 5)), (.store, .put (.bool true)), (.pickle, .get), (.store, .put (.bool false))]
  obtain ⟨⟨text, s⟩, hp, hs⟩ := Option.map_eq_some_iff.1
    (show (program plain plainFloat 4 (cfgRun plain 4 (.init fun _ => none) ops) none).map (fun r =>
      ((getOf plain 4 .pickle r.2).1, (spawned plain plainFloat 4 1 (fun _ => none) r.1).map fun p => (getOf plain 4 .pickle p.cfg).1)) =
      some (.ok (.int 5), some (.ok (.int 262144))) by decide +kernel)
  obtain ⟨p, hq, hall⟩ := h plain plainFloat 4 4 1 (fun _ => none) (fun _ => none) ops text s hp (fun _ _ => rfl)
  simp only [Prod.mk.injEq] at hs
  have := hall .pickle (.int 5) hs.1
  rw [hq] at hs
  simp only [Option.map_some, Option.some.injEq] at hs
  rw [this] at hs
  exact absurd hs.2 (by decide)

/-- Violated by the code: the hosts are put between quotes as they are. A quote in them ends every spawned process with a syntax
error, while the main process waits for them. -/
theorem C96_hosts_violated : ∃ text s, program plain plainFloat 4 (cfgRun plain 4 (.init fun _ => none)
      [(.hosts, .put (.str "node'1"))]) none = some (text, s) ∧
    ∀ rank environ, spawned plain plainFloat 4 rank environ text = none := by
  obtain ⟨⟨text, s⟩, hp, hs⟩ := Option.map_eq_some_iff.1
    (show (program plain plainFloat 4 (cfgRun plain 4 (.init fun _ => none) [(.hosts, .put (.str "node'1"))]) none).map (fun r =>
      parse plainFloat r.1.length r.1) = some none by decide +kernel)
  exact ⟨text, s, hp, fun rank environ => by simp only at hs; rw [spawned, hs]; rfl⟩

/-- Violated by the code: the number of CPUs is not passed on if it is the default, and the default depends on the host. -/
theorem C96_cpus_violated : ∃ text s, program plain plainFloat 8 (cfgRun plain 8 (.init fun _ => none) []) none = some (text, s) ∧
    (getOf plain 8 .cpus s).1 = .ok (.int 8) ∧
    (spawned plain plainFloat 4 1 (fun _ => none) text).map (fun p => (getOf plain 4 .cpus p.cfg).1) = some (.ok (.int 4)) := by
  obtain ⟨⟨text, s⟩, hp, hs⟩ := Option.map_eq_some_iff.1
    (show (program plain plainFloat 8 (cfgRun plain 8 (.init fun _ => none) []) none).map (fun r =>
      ((getOf plain 8 .cpus r.2).1, (spawned plain plainFloat 4 1 (fun _ => none) r.1).map fun p => (getOf plain 4 .cpus p.cfg).1)) =
      some (.ok (.int 8), some (.ok (.int 4))) by decide +kernel)
  simp only [Prod.mk.injEq] at hs
  exact ⟨text, s, hp, hs.1, hs.2⟩

/-- Violated by the code: a variable of the runtime environment that is named like the one of a parameter reaches only the spawned
processes. There the parameter has another value than in the main process. -/
theorem C96_variable_violated : ∃ text s, program plain plainFloat 4 (cfgRun plain 4 (.init fun _ => none) [])
      (some [("UNIDIST_CPUS".toList, .int 2)]) = some (text, s) ∧ (getOf plain 4 .cpus s).1 = .ok (.int 4) ∧
    ∀ rank ∈ [0, 1], (spawned plain plainFloat 4 rank (fun _ => none) text).map (fun p => (getOf plain 4 .cpus p.cfg).1) =
      some (.ok (.int 2)) := by
  obtain ⟨⟨text, s⟩, hp, hs⟩ := Option.map_eq_some_iff.1
    (show (program plain plainFloat 4 (cfgRun plain 4 (.init fun _ => none) []) (some [("UNIDIST_CPUS".toList, .int 2)])).map (fun r =>
      ((getOf plain 4 .cpus r.2).1, [0, 1].map fun rank =>
        (spawned plain plainFloat 4 rank (fun _ => none) r.1).map fun p => (getOf plain 4 .cpus p.cfg).1)) =
      some (.ok (.int 4), [some (.ok (.int 2)), some (.ok (.int 2))]) by decide +kernel)
  simp only [Prod.mk.injEq, List.map_cons, List.map_nil, List.cons.injEq, and_true] at hs
  exact ⟨text, s, hp, hs.1, by simpa using hs.2⟩

/-- A text that the text of a value stands for, if there is any. -/
noncomputable def denoted (t : EnvVal → Str) (v : EnvVal) : Str :=
  open Classical in if h : ∃ u, Denotes (t v) u then h.choose else []

theorem denoted_spec {t : EnvVal → Str} {v : EnvVal} (h : ∃ u, Denotes (t v) u) : Denotes (t v) (denoted t v) := by
  rw [denoted, dif_pos h]; exact h.choose_spec

/-- What a class of the spawned process reads. -/
theorem spawned_read {T : PyText} {c c' : Nat} {sf : Cfg} {cfg : Cfg} (hsf : Sound c sf) (e : Name → Option String)
    (hE : ∀ n, (sf n).source = some .default → e n = none)
    (hcfg : ∀ n, (∃ v, readOf T c n sf = .ok v ∧ Typed (param c n).kind v ∧ cfg n = ⟨some v, some .user, e n⟩) ∨
      ((sf n).source = some .default ∧ cfg n = .init (e n)))
    (n : Name) (v : PyVal) (hn : n = .cpus → c' = c ∨ (sf n).source ≠ some .default) (hg : Good (param c n) (sf n))
    (hv : reads T (param c n) (sf n) = .ok v) (hem : n = .pickle → reads T (param c .store) (sf .store) ≠ .ok (.bool true) ∧
      ∃ on, reads T (param c .store) (sf .store) = .ok on) :
    reads T (param c' n) (cfg n) = .ok v := by
  rcases hcfg n with ⟨w, hw, ht, hc⟩ | ⟨hsrc, hc⟩
  · rw [hc, reads_of (param_choices c' n) rfl]
    rw [← hv, ← hw, readOf]
    split
    · rename_i hp
      subst hp
      obtain ⟨hne, on, hon⟩ := hem rfl
      rw [hon] at hne
      simp only [pickleReads, hon]
      rw [if_neg fun h => hne (by rw [h])]
    · rfl
  · rcases hg with ⟨-, hsn⟩ | ⟨u, src, hu, hs, hd, -⟩
    · rw [hsrc] at hsn; cases hsn
    · rw [hsrc] at hs; cases hs
      have hd := hd rfl
      rw [reads_of (param_choices c n) hu] at hv
      cases hv
      have hd' : (param c' n).default = some v := by
        rw [← hd]
        refine param_default c' c n fun hc => ?_
        exact (hn hc).resolve_right fun h => h hsrc
      rw [hc, hE n hsrc]
      simp [reads, getValue, fill, State.init, hd', allowed, param_choices]

/-- The shared store is enabled or disabled. -/
theorem store_bool {T : PyText} {c : Nat} {s : Cfg} {on : PyVal} (hs : Sound c s) (h : reads T (param c .store) (s .store) = .ok on)
    (hne : on ≠ .bool true) : on = .bool false := by
  have key : ∀ x : State, Good (param c .store) x → x.value = some on → on = .bool false := by
    intro x hx hv
    rcases hx with ⟨h1, -⟩ | ⟨w, src, hw, -, hd, ht⟩
    · rw [h1] at hv; cases hv
    · rw [hw] at hv; cases hv
      by_cases hsd : src = .default
      · have := hd hsd; cases this; rfl
      · have := ht hsd
        cases on with
        | bool b => cases b with
          | true => exact absurd rfl hne
          | false => rfl
        | none => cases this
        | int i => cases this
        | float i => cases this
        | str i => cases this
        | other i => cases this
  rcases getValue_cases T (param c .store) (s .store) rfl (param_kind c _) (hs.1 .store (by simp)) with ⟨e, -⟩ | ⟨v, x', e, e1, -, e3, -⟩
  · rw [reads, e] at h; cases h
  · rw [reads, e] at h; cases h
    exact key x' e3 e1

/-- Whatever the program set and read before, provided that the hosts contain no quotes, backslashes or ends of lines, and the values of
variables no quotes, ends of lines or codes: the spawned processes read
what the main process reads, except for the default number of CPUs on another host, and for the pickle threshold if its recorded source is the
default while the shared store is disabled. In the last case they read the default of the pickle threshold. Missing: these two cases, and
other texts. -/
theorem C96_settings_partial (T : PyText) (F : FloatText) (cpus cpus' rank : Nat) (environ environ' : Str → Option Str)
    (ops : List (Name × Op)) (runtime : Option (List (Str × EnvVal))) (text : Str) (s : Cfg)
    (hp : program T F cpus (cfgRun T cpus (.init environ) ops) runtime = some (text, s))
    (hhost : ∀ h, (getOf T cpus .hosts s).1 = .ok (.str h) → Plain h.toList)
    (hrt : ∀ e ∈ runtime.getD [], Plain e.1 ∧ (∃ u, Denotes (variableText e.2) u) ∧ ∀ n : Name, e.1 ≠ n.var) (hd : ((runtime.getD []).map (·.1)).Nodup)
    (hE : ∀ n, (s n).source = some .default → environ' n.var = none) :
    ∃ p, spawned T F cpus' rank environ' text = some p ∧
      ∀ n v, (getOf T cpus n s).1 = .ok v → (n = .cpus → cpus' = cpus ∨ (s n).source ≠ some .default) →
        (getOf T cpus' n p.cfg).1 = .ok v ∨
        (n = .pickle ∧ (s n).source = some .default ∧ (getOf T cpus .store s).1 = .ok (.bool false) ∧
          (getOf T cpus' n p.cfg).1 = .ok (.int 262144)) := by
  have hs := sound_run (T := T) ops (sound_init cpus environ)
  have hmain : ∀ n, Keeps T cpus (cfgRun T cpus (.init environ) ops) s → Sound cpus s →
      readOf T cpus n (cfgRun T cpus (.init environ) ops) = (getOf T cpus n s).1 := fun n hk hsf => by
    rw [(get_any n hsf).1, readOf_keeps n hk]
  obtain ⟨⟨ts, sf'⟩, he, h'⟩ := Option.map_eq_some_iff.1 hp
  obtain rfl : s = sf' := (congrArg Prod.snd h').symm
  obtain ⟨-, -, hsf0, hk0, -⟩ := emitAll_spec names (by decide) hs he
  obtain ⟨hsf, hk, p, hsp, -, hcfg⟩ := spawned_program (c' := cpus') (rank := rank) environ' hs hp
    (fun t ht => hhost t (by rw [← hmain .hosts hk0 hsf0]; exact ht)) (denoted variableText)
    (fun e he => ⟨(hrt e he).1, variableText_eq e.2 ▸ denoted_spec (hrt e he).2.1, (hrt e he).2.2⟩) hd
  have hcfg' : ∀ n, (∃ v, readOf T cpus n s = .ok v ∧ Typed (param cpus n).kind v ∧
      p.cfg n = ⟨some v, some .user, (environ' n.var).map String.ofList⟩) ∨
      ((s n).source = some .default ∧ p.cfg n = .init ((environ' n.var).map String.ofList)) := fun n => by
    rw [readOf_keeps n hk]; exact hcfg n
  have hE' : ∀ n, (s n).source = some .default → (environ' n.var).map String.ofList = none := fun n hn => by rw [hE n hn]; rfl
  have hkind : ∀ n, (param cpus' n).kind = (param cpus n).kind := fun n => by cases n <;> rfl
  have hgood : ∀ n, Good (param cpus' n) (p.cfg n) := fun n => by
    rcases hcfg n with ⟨v, -, ht, hc⟩ | ⟨-, hc⟩ <;> rw [hc]
    · exact .inr ⟨v, .user, rfl, rfl, nofun, fun _ => by rw [hkind]; exact ht⟩
    · exact .inl ⟨rfl, rfl⟩
  have hsp' : Sound cpus' p.cfg := ⟨fun n _ => hgood n, good_fine (hgood .pickle)⟩
  have regular : ∀ n v, n ≠ .pickle → reads T (param cpus n) (s n) = .ok v →
      (n = .cpus → cpus' = cpus ∨ (s n).source ≠ some .default) → reads T (param cpus' n) (p.cfg n) = .ok v := fun n v hn hv hc =>
    spawned_read hsf _ hE' hcfg' n v hc (hsf.1 n hn) hv (fun h => absurd h hn)
  have hstore : (getOf T cpus .store s).1 = reads T (param cpus .store) (s .store) := (get_regular hsf (by simp)).1
  refine ⟨p, hsp, fun n v hv hc => ?_⟩
  rw [(get_any n hsf).1] at hv
  rw [(get_any n hsp').1]
  simp only [readOf] at hv ⊢
  by_cases hn : n = .pickle
  · subst hn
    simp only [if_true, pickleReads] at hv ⊢
    cases hst : reads T (param cpus .store) (s .store) with
    | error => rw [hst] at hv; cases hv
    | ok on =>
      rw [hst] at hv
      rw [regular .store on (by simp) hst nofun]
      simp only at hv ⊢
      by_cases hon : on = .bool true
      · rw [if_pos hon] at hv ⊢
        exact .inl (regular .sharedThreshold v (by simp) hv nofun)
      · rw [if_neg hon] at hv ⊢
        rcases hcfg' .pickle with ⟨w, hw, ht, hcw⟩ | ⟨hsrc, hcw⟩
        · left
          rw [hcw, reads_of (param_choices cpus' _) rfl]
          simp only [readOf, if_true, pickleReads, hst, if_neg hon] at hw
          rw [← hw, hv]
        · right
          refine ⟨trivial, hsrc, ?_, ?_⟩
          · rw [hstore, hst, store_bool hsf hst hon]
          · rw [hcw, hE' .pickle hsrc]; rfl
  · rw [if_neg hn] at hv ⊢
    exact .inl (regular n v hn hv hc)

/-- The spawned processes read what the main process reads, provided that the texts contain no quotes, backslashes or ends of lines,
the program did not disable the shared store, and hosts with different numbers of CPUs are not used with the default number. -/
theorem C96_configuration_partial (T : PyText) (F : FloatText) (cpus cpus' rank : Nat) (environ environ' : Str → Option Str)
    (ops : List (Name × Op)) (runtime : Option (List (Str × EnvVal))) (text : Str) (s : Cfg)
    (hops : (Name.store, Op.put (.bool false)) ∉ ops ∧ (Name.store, Op.put (.str "")) ∉ ops)
    (hp : program T F cpus (cfgRun T cpus (.init environ) ops) runtime = some (text, s))
    (hhost : ∀ h, (getOf T cpus .hosts s).1 = .ok (.str h) → Plain h.toList)
    (hrt : ∀ e ∈ runtime.getD [], Plain e.1 ∧ (∃ u, Denotes (variableText e.2) u) ∧ ∀ n : Name, e.1 ≠ n.var) (hd : ((runtime.getD []).map (·.1)).Nodup)
    (hE : ∀ n, (s n).source = some .default → environ' n.var = none) :
    ∃ p, spawned T F cpus' rank environ' text = some p ∧
      ∀ n v, (getOf T cpus n s).1 = .ok v → (n = .cpus → cpus' = cpus ∨ (s n).source ≠ some .default) →
        (getOf T cpus' n p.cfg).1 = .ok v := by
  obtain ⟨p, hsp, h⟩ := C96_settings_partial T F cpus cpus' rank environ environ' ops runtime text s hp hhost hrt hd hE
  refine ⟨p, hsp, fun n v hv hc => (h n v hv hc).elim id ?_⟩
  rintro ⟨rfl, hsrc, hoff, hread⟩
  have hs0 := sound_init cpus environ
  obtain ⟨⟨ts, sf'⟩, he, h'⟩ := Option.map_eq_some_iff.1 hp
  obtain rfl : s = sf' := (congrArg Prod.snd h').symm
  obtain ⟨-, -, hsf, -⟩ := emitAll_spec names (by decide) (sound_run ops hs0) he
  have hst : reads T (param cpus .store) (s .store) = .ok (.bool false) := by rw [← (get_regular (T := T) hsf (by simp)).1]; exact hoff
  rcases steady_emitAll names (sound_run ops hs0) (steady_run ops hs0 (steady_init cpus environ) hops.1 hops.2) he with hg | ht
  · rcases hg with ⟨-, hsn⟩ | ⟨w, src, hw, hws, hwd, -⟩
    · rw [hsrc] at hsn; cases hsn
    · rw [hsrc] at hws; cases hws
      have := hwd rfl
      cases this
      rw [(get_any .pickle hsf).1] at hv
      simp only [readOf, if_true, pickleReads, hst] at hv
      rw [if_neg (by simp), reads_of rfl hw] at hv
      rw [hread, ← hv]
  · rw [reads_of rfl ht] at hst; cases hst

-- the threshold set before the shared store was switched on and off again: the spawned processes read its default
example : (program plain plainFloat 4 (cfgRun plain 4 (.init fun _ => none)
      [(.pickle, .put (.int 1000)), (.store, .put (.bool true)), (.pickle, .get), (.store, .put (.bool false)), (.log, .put (.bool true))]) none).map
      (fun r => ((getOf plain 4 .pickle r.2).1, (spawned plain plainFloat 4 1 (fun _ => none) r.1).map fun p =>
        ((getOf plain 4 .pickle p.cfg).1, (getOf plain 4 .log p.cfg).1))) =
    some (.ok (.int 1000), some (.ok (.int 262144), .ok (.bool true))) := by decide +kernel

/-- The documented values of the parameters in a program that sets none of them. -/
def DocumentedDefault (cpus : Nat) (n : Name) (v : PyVal) : Prop :=
  (n = .spawn → v = .bool true) ∧ (n = .log → v = .bool false) ∧ (n = .store → v = .bool false) ∧
  (n ∈ [Name.hosts, .storeMemory, .serviceMemory] → v = .none) ∧ (n = .cpus → v = .int cpus) ∧
  (n = .pickle → v = .int (1024 ^ 2 / 4)) ∧ (n = .sharedThreshold → v = .int (10 ^ 5)) ∧ (n = .backoff → v = .float 0)

private def AtDefault (cpus : Nat) (s : Cfg) : Prop := ∀ n, s n = .init none ∨ s n = ⟨(param cpus n).default, some .default, none⟩

private theorem atDefault_value {T : PyText} {cpus : Nat} {n : Name} {x : State}
    (h : x = .init none ∨ x = ⟨(param cpus n).default, some .default, none⟩) :
    ∃ v, (param cpus n).default = some v ∧ getValue T (param cpus n) x = (.ok v, ⟨some v, some .default, none⟩) := by
  cases n <;> rcases h with rfl | rfl <;> exact ⟨_, rfl, rfl⟩

private theorem atDefault_get {T : PyText} {cpus : Nat} {n : Name} {s : Cfg} (h : AtDefault cpus s) :
    ∃ v s', (param cpus n).default = some v ∧ getOf T cpus n s = (.ok v, s') ∧ AtDefault cpus s' ∧ (s' n).source = some .default := by
  obtain ⟨v, hv, hg⟩ := atDefault_value (T := T) (h n)
  by_cases hn : n = .pickle
  · subst hn
    obtain ⟨b, hb, hs⟩ := atDefault_value (T := T) (h .store)
    cases hb
    refine ⟨v, Spawn.upd (Spawn.upd s .store ⟨some (.bool false), some .default, none⟩) .pickle ⟨some v, some .default, none⟩, hv, ?_, fun m => ?_, ?_⟩
    · simp [getOf, hs, hg]
    · by_cases hm : m = .pickle
      · subst hm; right; simp [Spawn.upd, hv]
      · by_cases hm' : m = .store
        · subst hm'; right; simp [Spawn.upd, param]
        · simpa [Spawn.upd, hm, hm'] using h m
    · simp [Spawn.upd]
  · refine ⟨v, Spawn.upd s n ⟨some v, some .default, none⟩, hv, ?_, fun m => ?_, ?_⟩
    · simp [getOf, hn, hg]
    · by_cases hm : m = n
      · subst hm; right; simp [Spawn.upd, hv]
      · simpa [Spawn.upd, hm] using h m
    · simp [Spawn.upd]

/-- Where nothing is set, neither in the environment nor by the program, every parameter has its documented value, however often the
parameters and their sources are read before. -/
theorem C96_defaults (T : PyText) (cpus : Nat) (environ : Str → Option Str) (henv : ∀ n : Name, environ n.var = none)
    (ops : List (Name × Op)) (hops : ∀ o ∈ ops, o.2 = .get ∨ o.2 = .source) (n : Name) :
    ∃ v, (getOf T cpus n (cfgRun T cpus (.init environ) ops)).1 = .ok v ∧ DocumentedDefault cpus n v := by
  have hstart : AtDefault cpus (.init environ) := fun m => .inl (by simp [Cfg.init, henv])
  have hrun : ∀ (ops : List (Name × Op)) (s : Cfg), (∀ o ∈ ops, o.2 = .get ∨ o.2 = .source) → AtDefault cpus s →
      AtDefault cpus (cfgRun T cpus s ops) := by
    intro ops
    induction ops with
    | nil => exact fun s _ h => h
    | cons o ops ih =>
      intro s ho h
      refine ih _ (fun x hx => ho x (by simp [hx])) ?_
      obtain ⟨m, op⟩ := o
      obtain ⟨v, s', -, hg, hs', hsrc⟩ := atDefault_get (T := T) (n := m) h
      rcases ho (m, op) (by simp) with hop | hop <;> simp only at hop <;> subst hop
      · simpa [cfgStep, hg] using hs'
      · simp only [cfgStep, sourceOf]
        cases (s m).source with
        | some x => exact h
        | none => simpa [hg, hsrc] using hs'
  obtain ⟨v, s', hd, hg, -, -⟩ := atDefault_get (T := T) (n := n) (hrun ops _ hops hstart)
  refine ⟨v, by rw [hg], ?_⟩
  cases n <;> cases hd <;> simp [DocumentedDefault]

-- the pickle threshold is read before and after the others
example : DocumentedDefault 4 .pickle (.int 262144) ∧
    (getOf plain 4 .pickle (cfgRun plain 4 (.init fun _ => none) [(.pickle, .source), (.store, .get), (.sharedThreshold, .get)])).1 =
      .ok (.int 262144) := ⟨by simp [DocumentedDefault], by decide +kernel⟩

/-! ### C97 -/

/-- **C97**, full claim: whatever texts the variables of the runtime environment have, every spawned process runs and has them. -/
def C97_full : Prop :=
  ∀ (T : PyText) (F : FloatText) (cpus rank : Nat) (environ : Str → Option Str) (d : List (Str × EnvVal)) (text : Str) (s : Cfg),
    (d.map (·.1)).Nodup → program T F cpus (.init environ) (some d) = some (text, s) →
    ∃ p, spawned T F cpus rank environ text = some p ∧ ∀ e ∈ d, p.environ e.1 = some (variableText e.2)

/-- Violated by the code: a quote in a value is a syntax error in every spawned process. -/
theorem C97_quote_violated : ¬ C97_full := by
  intro h
  let d : List (Str × EnvVal) := [("GREETING".toList, .str "it's".toList)]
  obtain ⟨⟨text, s⟩, hp, hs⟩ := Option.map_eq_some_iff.1
    (show (program plain plainFloat 4 (.init fun _ => none) (some d)).map (fun r => parse plainFloat r.1.length r.1) = some none by
      decide +kernel)
  obtain ⟨p, hq, -⟩ := h plain plainFloat 4 1 (fun _ => none) d text s (by decide) hp
  simp only at hs
  rw [spawned, hs] at hq
  cases hq

/-- Violated by the code: a backslash in a value is taken for the beginning of an escape sequence. The spawned process of rank 0
gets another value; the others correct it. -/
theorem C97_backslash_violated :
    ∃ text s, program plain plainFloat 4 (.init fun _ => none) (some [("DIR".toList, .str "C:\\new".toList)]) = some (text, s) ∧
      (spawned plain plainFloat 4 0 (fun _ => none) text).map (fun p => p.environ "DIR".toList) = some (some "C:\new".toList) ∧
      (spawned plain plainFloat 4 1 (fun _ => none) text).map (fun p => p.environ "DIR".toList) = some (some "C:\\new".toList) := by
  obtain ⟨⟨text, s⟩, hp, hs⟩ := Option.map_eq_some_iff.1
    (show (program plain plainFloat 4 (.init fun _ => none) (some [("DIR".toList, .str "C:\\new".toList)])).map (fun r =>
      ((spawned plain plainFloat 4 0 (fun _ => none) r.1).map (fun p => p.environ "DIR".toList),
       (spawned plain plainFloat 4 1 (fun _ => none) r.1).map (fun p => p.environ "DIR".toList))) =
      some (some (some "C:\new".toList), some (some "C:\\new".toList)) by decide +kernel)
  simp only [Prod.mk.injEq] at hs
  exact ⟨text, s, hp, hs.1, hs.2⟩

set_option synthInstance.maxSize 1000 in
/-- Violated by the code: the rest of a value behind a quote is run as a program. Here it sets another variable in every spawned
process. -/
theorem C97_runs_value_violated :
    ∃ text s, program plain plainFloat 4 (.init fun _ => none)
        (some [("A".toList, .str "x'; os.environ['PATH'] = 'y".toList)]) = some (text, s) ∧
      (spawned plain plainFloat 4 0 (fun _ => none) text).map (fun p => (p.environ "A".toList, p.environ "PATH".toList)) =
        some (some "x".toList, some "y".toList) ∧
      (spawned plain plainFloat 4 1 (fun _ => none) text).map (fun p => (p.environ "A".toList, p.environ "PATH".toList)) =
        some (some "x'; os.environ['PATH'] = 'y".toList, some "y".toList) := by
  obtain ⟨⟨text, s⟩, hp, hs⟩ := Option.map_eq_some_iff.1
    (show (program plain plainFloat 4 (.init fun _ => none) (some [("A".toList, .str "x'; os.environ['PATH'] = 'y".toList)])).map (fun r =>
      ((spawned plain plainFloat 4 0 (fun _ => none) r.1).map (fun p => (p.environ "A".toList, p.environ "PATH".toList)),
       (spawned plain plainFloat 4 1 (fun _ => none) r.1).map (fun p => (p.environ "A".toList, p.environ "PATH".toList)))) =
      some (some (some "x".toList, some "y".toList), some (some "x'; os.environ['PATH'] = 'y".toList, some "y".toList)) by decide +kernel)
  simp only [Prod.mk.injEq] at hs
  exact ⟨text, s, hp, hs.1, hs.2⟩

/-- With backslashes, but without quotes, ends of lines and codes: rank 0 has the texts that the values stand for in a Python program,
the other spawned processes have the values, and all inherit the other variables. So rank 0 is wrong exactly for values that do not stand
for themselves. -/
theorem C97_backslashes_partial (T : PyText) (F : FloatText) (cpus cpus' rank : Nat) (environ environ' : Str → Option Str)
    (ops : List (Name × Op)) (d : List (Str × EnvVal)) (text : Str) (s : Cfg)
    (hp : program T F cpus (cfgRun T cpus (.init environ) ops) (some d) = some (text, s))
    (hhost : ∀ h, (getOf T cpus .hosts s).1 = .ok (.str h) → Plain h.toList) (read : EnvVal → Str)
    (hrt : ∀ e ∈ d, Plain e.1 ∧ Denotes (variableText e.2) (read e.2) ∧ ∀ n : Name, e.1 ≠ n.var) (hd : (d.map (·.1)).Nodup) :
    ∃ p, spawned T F cpus' rank environ' text = some p ∧
      (∀ e ∈ d, p.environ e.1 = some (if rank = 0 then read e.2 else variableText e.2)) ∧
      ∀ k, k ∉ d.map (·.1) → p.environ k = environ' k := by
  have hs := sound_run (T := T) ops (sound_init cpus environ)
  obtain ⟨⟨ts, sf'⟩, he, h'⟩ := Option.map_eq_some_iff.1 hp
  obtain rfl : s = sf' := (congrArg Prod.snd h').symm
  obtain ⟨-, -, hsf0, hk0, -⟩ := emitAll_spec names (by decide) hs he
  obtain ⟨-, -, p, hsp, henv, -⟩ := spawned_program (c' := cpus') (rank := rank) environ' hs hp
    (fun t ht => hhost t (by rw [(get_any .hosts hsf0).1, readOf_keeps .hosts hk0]; exact ht)) read
    (fun e he => variableText_eq e.2 ▸ hrt e he) hd
  refine ⟨p, hsp, fun e hed => ?_, fun k hk => ?_⟩
  · have : d.lookup e.1 = some e.2 := by
      clear hp he hsp henv hrt h'
      induction d with
      | nil => simp at hed
      | cons a d ih =>
        obtain ⟨k, v⟩ := a
        simp only [List.map_cons, List.nodup_cons] at hd
        rcases List.mem_cons.1 hed with rfl | hed
        · simp [List.lookup]
        · have hne : (e.1 == k) = false := by
            simp only [beq_eq_false_iff_ne, ne_eq]
            intro h; exact hd.1 (by rw [← h]; exact List.mem_map_of_mem hed)
          simp only [List.lookup, hne]
          exact ih hd.2 hed
    rw [henv, dict, Option.getD_some, this, variableText_eq]
  · have : d.lookup k = none := by
      rw [List.lookup_eq_none_iff]
      intro x hx
      have : k ≠ x.1 := fun e => hk (by rw [e]; exact List.mem_map_of_mem hx)
      simpa using this
    rw [henv, dict, Option.getD_some, this]

/-- Without quotes, backslashes and ends of lines every spawned process has exactly the variables of the runtime environment with
their values, and otherwise those it inherited. -/
theorem C97_variables_partial (T : PyText) (F : FloatText) (cpus cpus' rank : Nat) (environ environ' : Str → Option Str)
    (ops : List (Name × Op)) (d : List (Str × EnvVal)) (text : Str) (s : Cfg)
    (hp : program T F cpus (cfgRun T cpus (.init environ) ops) (some d) = some (text, s))
    (hhost : ∀ h, (getOf T cpus .hosts s).1 = .ok (.str h) → Plain h.toList)
    (hrt : ∀ e ∈ d, Plain e.1 ∧ Plain (variableText e.2) ∧ ∀ n : Name, e.1 ≠ n.var) (hd : (d.map (·.1)).Nodup) :
    ∃ p, spawned T F cpus' rank environ' text = some p ∧
      (∀ e ∈ d, p.environ e.1 = some (variableText e.2)) ∧ ∀ k, k ∉ d.map (·.1) → p.environ k = environ' k := by
  obtain ⟨p, hsp, h1, h2⟩ := C97_backslashes_partial T F cpus cpus' rank environ environ' ops d text s hp hhost variableText
    (fun e he => ⟨(hrt e he).1, denotes_plain _ (hrt e he).2.1, (hrt e he).2.2⟩) hd
  exact ⟨p, hsp, fun e he => by simpa using h1 e he, h2⟩

-- a Windows path: `\n` is the end of a line in rank 0, `\d` stays
example : Denotes "C:\\new\\dir".toList "C:\new\\dir".toList := by
  repeat first
    | exact .nil
    | refine .char (by decide) ?_
    | refine .escape (by decide) ?_
    | refine .backslash (by decide) ?_

-- a run with hosts, a number and two variables
example : (program plain plainFloat 4 (cfgRun plain 4 (.init fun _ => none) [(.hosts, .put (.str "a,b")), (.log, .put (.bool true))])
      (some [("A".toList, .str "x y".toList), ("B".toList, .int 7)])).map (·.1) =
    some ("import unidist; import unidist.config as cfg; cfg.Backend.put('mpi'); cfg.MpiHosts.put('a,b'); cfg.MpiLog.put(True); " ++
      "cfg.MpiRuntimeEnv.put({'env_vars': {'A': 'x y', 'B': 7}}); import os; os.environ['A'] = 'x y'; os.environ['B'] = '7'; " ++
      "unidist.init()").toList := by decide +kernel

end Verif.Props
