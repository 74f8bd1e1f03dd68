import Verif.Lemmas.SpawnConfig

/-! A spawned process runs the program written by the main process. -/
namespace Verif.Spawn
open Verif.Config Verif.Spec

/-! ## The statements of the main process -/

theorem source_eq {T : PyText} {c : Nat} {n : Name} {s s' : Cfg} {src : Source} (h : sourceOf T c n s = (.ok src, s')) :
    (s' n).source = some src := by
  simp only [sourceOf] at h
  split at h
  · rename_i x hx; cases h; exact hx
  · rcases hg : getOf T c n s with ⟨_ | _, t⟩ <;> rw [hg] at h
    · simp only at h
      split at h
      · rename_i x hx; cases h; exact hx
      · cases h
    · cases h

theorem source_frame {T : PyText} {c : Nat} {n : Name} {s : Cfg} (hs : Sound c s) (hn : n ≠ .pickle) (m : Name) (hm : m ≠ n) :
    (sourceOf T c n s).2 m = s m := by
  simp only [sourceOf]
  split
  · rfl
  · have := (get_regular (T := T) hs hn).2.2.2.2 m hm
    rcases hg : getOf T c n s with ⟨_ | _, t⟩ <;> rw [hg] at this
    · simp only; split <;> exact this
    · exact this

theorem emit_spec {T : PyText} {F : FloatText} {c : Nat} {n : Name} {s s' : Cfg} {ts : List Str} (hs : Sound c s)
    (h : emit T F c n s = some (ts, s')) :
    Sound c s' ∧ Keeps T c s s' ∧ (n ≠ .pickle → s' .pickle = s .pickle) ∧
    ((ts = [] ∧ (s' n).source = some .default) ∨
      ∃ v, ts = [putText F n v] ∧ readOf T c n s = .ok v ∧ Typed (param c n).kind v) := by
  have h1 := source_any (T := T) n hs
  have hf := fun hn : n ≠ .pickle => source_frame (T := T) hs hn .pickle (Ne.symm hn)
  simp only [emit] at h
  rcases hq : sourceOf T c n s with ⟨src | _, t⟩ <;> rw [hq] at h h1 hf
  · simp only at h h1 hf
    have hsrc := source_eq hq
    split at h
    · rename_i hd
      cases h
      subst hd
      exact ⟨h1.1, h1.2, hf, .inl ⟨rfl, hsrc⟩⟩
    · rename_i hd
      have h2 := get_any (T := T) n h1.1
      rcases hg : getOf T c n t with ⟨v | _, u⟩ <;> rw [hg] at h h2
      · simp only at h h2
        cases h
        refine ⟨h2.2.1, keeps_trans h1.2 h2.2.2, ?_, .inr ⟨v, rfl, ?_, ?_⟩⟩
        · intro hn
          have := (get_regular (T := T) h1.1 hn).2.2.2.2 .pickle (Ne.symm hn)
          rw [hg] at this
          exact this.trans (hf hn)
        · rw [← readOf_keeps n h1.2]; exact h2.1.symm
        · by_cases hn : n = .pickle
          · subst hn
            have := (get_pickle (T := T) h1.1).2.2.2 v
            rw [hg] at this
            exact this rfl
          · have hv := (get_regular (T := T) h1.1 hn).2.2.2.1 v
            rw [hg] at hv
            have hv : (s' n).value = some v := hv rfl
            rcases h1.1.1 n hn with ⟨-, hsn⟩ | ⟨w, src', hw, hs', -, ht⟩
            · rw [hsrc] at hsn; cases hsn
            · rw [hsrc] at hs'; cases hs'
              have : s' n = t n := h2.2.2.2.1 n hn (by simp [hw])
              rw [this, hw] at hv
              cases hv
              exact ht hd
      · cases h
  · cases h

theorem emitAll_spec {T : PyText} {F : FloatText} {c : Nat} (ns : List Name) (hnd : ns.Nodup) {s sf : Cfg} {ts : List Str}
    (hs : Sound c s) (h : emitAll T F c ns s = some (ts, sf)) :
    ∃ l : List (Name × PyVal), ts = l.map (fun p => putText F p.1 p.2) ∧ Sound c sf ∧ Keeps T c s sf ∧
      (∀ p ∈ l, p.1 ∈ ns ∧ readOf T c p.1 s = .ok p.2 ∧ Typed (param c p.1).kind p.2) ∧
      (∀ n ∈ ns, (∀ v, (n, v) ∉ l) → (sf n).source = some .default) ∧
      (Name.pickle ∉ ns → sf .pickle = s .pickle) := by
  induction ns generalizing s ts with
  | nil => cases h; exact ⟨[], rfl, hs, keeps_refl _ _ _, nofun, nofun, fun _ => rfl⟩
  | cons n ns ih =>
    simp only [emitAll] at h
    obtain ⟨hnn, hnd⟩ := List.nodup_cons.1 hnd
    obtain ⟨⟨ts1, s1⟩, he, h⟩ := Option.bind_eq_some_iff.1 h
    obtain ⟨⟨ts2, s2⟩, h2, h3⟩ := Option.map_eq_some_iff.1 h
    cases h3
    obtain ⟨hs1, hk1, hp1, hc⟩ := emit_spec hs he
    obtain ⟨l, rfl, hsf, hk2, hl, hdef, hp2⟩ := ih hnd hs1 h2
    have hl' : ∀ p ∈ l, p.1 ∈ n :: ns ∧ readOf T c p.1 s = .ok p.2 ∧ Typed (param c p.1).kind p.2 := fun p hp =>
      ⟨List.mem_cons_of_mem _ (hl p hp).1, by rw [← readOf_keeps p.1 hk1]; exact (hl p hp).2.1, (hl p hp).2.2⟩
    have hpk : Name.pickle ∉ n :: ns → s2 .pickle = s .pickle := fun hn => by
      simp only [List.mem_cons, not_or] at hn
      exact (hp2 hn.2).trans (hp1 (Ne.symm hn.1))
    rcases hc with ⟨rfl, hsrc⟩ | ⟨v, rfl, hr, ht⟩
    · refine ⟨l, rfl, hsf, keeps_trans hk1 hk2, hl', ?_, hpk⟩
      intro m hm hno
      rcases List.mem_cons.1 hm with rfl | hm
      · by_cases hmp : m = .pickle
        · subst hmp; exact (congrArg State.source (hp2 hnn)).trans hsrc
        · rcases hs1.1 m hmp with ⟨-, hsn⟩ | ⟨w, src', hw, -⟩
          · rw [hsrc] at hsn; cases hsn
          · exact (congrArg State.source (hk2.2.1 m hmp (by simp [hw]))).trans hsrc
      · exact hdef m hm hno
    · refine ⟨(n, v) :: l, rfl, hsf, keeps_trans hk1 hk2, ?_, ?_, hpk⟩
      · intro p hp
        rcases List.mem_cons.1 hp with rfl | hp
        · exact ⟨by simp, hr, ht⟩
        · exact hl' p hp
      · intro m hm hno
        rcases List.mem_cons.1 hm with rfl | hm
        · exact absurd List.mem_cons_self (hno v)
        · exact hdef m hm fun w hw => hno w (List.mem_cons_of_mem _ hw)

/-! ## The spawned process -/

theorem exec_append (T : PyText) (c rank : Nat) (p : Proc) (a b : List Stmt) :
    exec T c rank p (a ++ b) = (exec T c rank p a).bind fun q => exec T c rank q b := by
  induction a generalizing p with
  | nil => rfl
  | cons x a ih =>
    simp only [List.cons_append, exec]
    cases execStmt T c rank p x with
    | none => rfl
    | some q => exact ih q

theorem exec_puts (T : PyText) (c rank : Nat) (l : List (Name × PyVal)) (ht : ∀ p ∈ l, Typed (param c p.1).kind p.2) (p : Proc) :
    ∃ q, exec T c rank p (l.map fun e => Stmt.put e.1 e.2) = some q ∧ q.runtime = p.runtime ∧ q.environ = p.environ ∧
      ∀ n, (∃ v, (n, v) ∈ l ∧ q.cfg n = { p.cfg n with value := some v, source := some .user }) ∨
        ((∀ v, (n, v) ∉ l) ∧ q.cfg n = p.cfg n) := by
  induction l generalizing p with
  | nil => exact ⟨p, rfl, rfl, rfl, fun n => .inr ⟨nofun, rfl⟩⟩
  | cons e l ih =>
    obtain ⟨m, v⟩ := e
    have h1 := put_typed (T := T) (param c m) rfl (ht (m, v) (by simp)) (p.cfg m)
    obtain ⟨q, hq, hr, he, hc⟩ := ih (fun x hx => ht x (List.mem_cons_of_mem _ hx))
      { p with cfg := upd p.cfg m { p.cfg m with value := some v, source := some .user } }
    refine ⟨q, ?_, hr, he, fun n => ?_⟩
    · simp only [List.map_cons, exec, execStmt, h1, Option.bind_some]
      exact hq
    · rcases hc n with ⟨w, hw, hcw⟩ | ⟨hno, hcn⟩
      · refine .inl ⟨w, List.mem_cons_of_mem _ hw, ?_⟩
        rw [hcw]
        by_cases hm : n = m
        · subst hm; simp [upd_same]
        · simp only [upd_ne _ _ _ _ hm]
      · by_cases hm : n = m
        · subst hm
          exact .inl ⟨v, by simp, by rw [hcn]; simp [upd_same]⟩
        · refine .inr ⟨fun w hw => ?_, ?_⟩
          · rcases List.mem_cons.1 hw with hw | hw
            · injection hw with hw _; exact hm hw
            · exact hno w hw
          · rw [hcn]; simp only [upd_ne _ _ _ _ hm]

/-- Setting the variables of a dictionary. -/
def setAll (f : EnvVal → Str) (p : Proc) (d : List (Str × EnvVal)) : Proc := d.foldl (fun p e => setenv p e.1 (f e.2)) p

theorem setAll_cfg (f : EnvVal → Str) (d : List (Str × EnvVal)) (hd : ∀ e ∈ d, ∀ n : Name, e.1 ≠ n.var) (p : Proc) :
    (setAll f p d).cfg = p.cfg ∧ (setAll f p d).runtime = p.runtime := by
  induction d generalizing p with
  | nil => exact ⟨rfl, rfl⟩
  | cons e d ih =>
    have := ih (fun x hx => hd x (by simp [hx])) (setenv p e.1 (f e.2))
    refine ⟨this.1.trans ?_, this.2⟩
    funext n
    simp [setenv, Ne.symm (hd e (by simp) n)]

theorem setAll_environ (f : EnvVal → Str) (d : List (Str × EnvVal)) (hd : (d.map (·.1)).Nodup) (p : Proc) (k : Str) :
    (setAll f p d).environ k = match d.lookup k with | some v => some (f v) | none => p.environ k := by
  induction d generalizing p with
  | nil => rfl
  | cons e d ih =>
    obtain ⟨k', v⟩ := e
    simp only [List.map_cons, List.nodup_cons] at hd
    have := ih hd.2 (setenv p k' (f v))
    show (setAll f (setenv p k' (f v)) d).environ k = _
    rw [this]
    by_cases h : k = k'
    · subst h
      have hno : d.lookup k = none := by
        rw [List.lookup_eq_none_iff]
        intro x hx
        have : k ≠ x.1 := fun e => hd.1 (by rw [e]; exact List.mem_map_of_mem hx)
        simpa using this
      simp [hno, List.lookup, setenv]
    · have hb : (k == k') = false := by simpa using h
      simp only [List.lookup, hb]
      cases d.lookup k with
      | none => simp [setenv, h]
      | some w => rfl

theorem exec_setenvs (T : PyText) (c rank : Nat) (f : EnvVal → Str) (d : List (Str × EnvVal)) (p : Proc) :
    exec T c rank p (d.map fun e => Stmt.setenv e.1 (f e.2)) = some (setAll f p d) := by
  induction d generalizing p with
  | nil => rfl
  | cons e d ih => simp only [List.map_cons, exec, execStmt, Option.bind_some, ih]; rfl

/-- The statements for the runtime environment; `f` is what the interpreter reads for a value. -/
def runtimeStmts (f : EnvVal → Str) : Option (List (Str × EnvVal)) → List Stmt
  | none => []
  | some d => .runtime d :: .imp "os".toList :: d.map fun e => .setenv e.1 (f e.2)

/-- The dictionary, empty by default. -/
def dict (runtime : Option (List (Str × EnvVal))) : List (Str × EnvVal) := runtime.getD []

theorem exec_runtime (T : PyText) (c rank : Nat) (f : EnvVal → Str) (runtime : Option (List (Str × EnvVal))) (p : Proc)
    (hp : p.runtime = []) (hv : ∀ e ∈ dict runtime, ∀ n : Name, e.1 ≠ n.var) (hd : ((dict runtime).map (·.1)).Nodup) :
    ∃ q, exec T c rank p (runtimeStmts f runtime ++ [.init]) = some q ∧ q.cfg = p.cfg ∧
      ∀ k, q.environ k = match (dict runtime).lookup k with
        | some v => some (if rank = 0 then f v else v.text)
        | none => p.environ k := by
  cases runtime with
  | none =>
    refine ⟨p, ?_, rfl, fun k => by simp [dict]⟩
    simp only [runtimeStmts, List.nil_append, exec, execStmt, hp]
    split <;> rfl
  | some d =>
    simp only [dict, Option.getD_some] at hv hd ⊢
    have h1 := setAll_cfg f d hv { p with runtime := d }
    have h2 := setAll_cfg EnvVal.text d hv (setAll f { p with runtime := d } d)
    have e1 := setAll_environ f d hd { p with runtime := d }
    have e2 := setAll_environ EnvVal.text d hd (setAll f { p with runtime := d } d)
    simp only [runtimeStmts, List.cons_append, exec, execStmt, Option.bind_some, exec_append, exec_setenvs]
    by_cases hr : rank = 0
    · exact ⟨setAll f { p with runtime := d } d, by simp [hr], h1.1, by simpa only [hr, if_true] using e1⟩
    · refine ⟨setAll EnvVal.text (setAll f { p with runtime := d } d) d, ?_, h2.1.trans h1.1, fun k => ?_⟩
      · simp only [ne_eq, hr, not_false_eq_true, if_true, h1.2]; rfl
      · rw [e2 k, e1 k]
        cases d.lookup k <;> simp [hr]

/-! ## The whole program -/

theorem reads_put (F : FloatText) (n : Name) (k : Kind) (v : PyVal) (ht : Typed k v) (hp : ∀ s, v = .str s → Plain s.toList) :
    Reads F (putText F n v) (.put n v) := fun r _ => stmt_put F n k v r ht hp

theorem reads_import (F : FloatText) (t w : Str) (ht : t = "import ".toList ++ w) (hw : ';' ∉ w) : Reads F t (.imp w) := fun r hr => by
  subst ht
  have : "import ".toList ++ w ++ r = "import ".toList ++ (w ++ r) := List.append_assoc _ _ _
  rw [this]
  exact stmt_import F w r hw hr

theorem spawned_program {T : PyText} {F : FloatText} {c c' rank : Nat} {s sf : Cfg} {text : Str}
    {runtime : Option (List (Str × EnvVal))} (environ : Str → Option Str) (hs : Sound c s)
    (h : program T F c s runtime = some (text, sf))
    (hhost : ∀ t, readOf T c .hosts s = .ok (.str t) → Plain t.toList)
    (f : EnvVal → Str)
    (hrt : ∀ e ∈ dict runtime, Plain e.1 ∧ Denotes e.2.text (f e.2) ∧ ∀ n : Name, e.1 ≠ n.var) (hd : ((dict runtime).map (·.1)).Nodup) :
    Sound c sf ∧ Keeps T c s sf ∧ ∃ p, spawned T F c' rank environ text = some p ∧
      (∀ k, p.environ k = match (dict runtime).lookup k with
        | some v => some (if rank = 0 then f v else v.text)
        | none => environ k) ∧
      ∀ n, (∃ v, readOf T c n s = .ok v ∧ Typed (param c n).kind v ∧ p.cfg n = ⟨some v, some .user, (environ n.var).map String.ofList⟩) ∨
        ((sf n).source = some .default ∧ p.cfg n = .init ((environ n.var).map String.ofList)) := by
  obtain ⟨⟨ts, sf'⟩, he, h'⟩ := Option.map_eq_some_iff.1 h
  cases h'
  obtain ⟨l, rfl, hsf, hk, hl, hdef, -⟩ := emitAll_spec names (by decide) hs he
  refine ⟨hsf, hk, ?_⟩
  have hkind : ∀ n, (param c' n).kind = (param c n).kind := fun n => by cases n <;> rfl
  -- the program and its statements
  let pairs : List (Str × Stmt) :=
    [("import unidist".toList, .imp "unidist".toList), ("import unidist.config as cfg".toList, .imp "unidist.config as cfg".toList),
     ("cfg.Backend.put('mpi')".toList, .backend "mpi".toList)] ++
    (l.map (fun p => (putText F p.1 p.2, Stmt.put p.1 p.2)) ++
      ((runtimeTexts runtime).zip (runtimeStmts f runtime) ++ [("unidist.init()".toList, Stmt.init)]))
  have hlen : (runtimeTexts runtime).length = (runtimeStmts f runtime).length := by
    cases runtime <;> simp [runtimeTexts, runtimeStmts]
  have htexts : pairs.map (·.1) = ["import unidist".toList, "import unidist.config as cfg".toList, "cfg.Backend.put('mpi')".toList] ++
      (l.map (fun p => putText F p.1 p.2) ++ (runtimeTexts runtime ++ ["unidist.init()".toList])) := by
    have : List.map (fun x => x.1) ((runtimeTexts runtime).zip (runtimeStmts f runtime)) = runtimeTexts runtime :=
      List.map_fst_zip (by omega)
    simp only [pairs, List.map_append, List.map_map, this]
    rfl
  have hstmts : pairs.map (·.2) = [.imp "unidist".toList, .imp "unidist.config as cfg".toList, .backend "mpi".toList] ++
      (l.map (fun p => Stmt.put p.1 p.2) ++ (runtimeStmts f runtime ++ [.init])) := by
    have : List.map (fun x => x.2) ((runtimeTexts runtime).zip (runtimeStmts f runtime)) = runtimeStmts f runtime :=
      List.map_snd_zip (by omega)
    simp only [pairs, List.map_append, List.map_map, this]
    rfl
  have hreads : ∀ p ∈ pairs, Reads F p.1 p.2 := by
    intro p hp
    simp only [pairs, List.mem_append, List.mem_cons, List.not_mem_nil, or_false, List.mem_map] at hp
    rcases hp with (rfl | rfl | rfl) | ⟨q, hq, rfl⟩ | hp | rfl
    · exact reads_import F _ _ (by decide +kernel) (by decide +kernel)
    · exact reads_import F _ _ (by decide +kernel) (by decide +kernel)
    · exact fun r _ => stmt_backend F r
    · obtain ⟨-, hq2, hq3⟩ := hl q hq
      refine reads_put F q.1 _ q.2 hq3 fun t ht => ?_
      rw [ht] at hq2 hq3
      have : q.1 = .hosts := by
        cases hn : q.1 <;> rw [hn] at hq3 <;> simp [param, Typed] at hq3
      rw [this] at hq2
      exact hhost t hq2
    · cases runtime with
      | none => simp [runtimeTexts] at hp
      | some d =>
        simp only [runtimeTexts, runtimeStmts, List.zip_cons_cons, List.mem_cons] at hp
        rcases hp with rfl | rfl | hp
        · exact fun r _ => stmt_runtime F d r
        · exact reads_import F _ _ (by decide +kernel) (by decide +kernel)
        · rw [List.zip_map', List.mem_map] at hp
          obtain ⟨e, he, rfl⟩ := hp
          have := hrt e (by simpa [dict] using he)
          exact fun r _ => stmt_setenv F e.1 e.2 r this.1 this.2.1
    · exact fun r _ => stmt_init F r
  have hparse := parse_program F pairs hreads (by simp [pairs])
  rw [htexts, hstmts] at hparse
  -- the run
  obtain ⟨q, hq, hqr, hqe, hqc⟩ := exec_puts T c' rank l (fun p hp => by rw [hkind]; exact (hl p hp).2.2) (.start environ)
  obtain ⟨z, hz, hzc, hze⟩ := exec_runtime T c' rank f runtime q (by rw [hqr]; rfl) (fun e he => (hrt e he).2.2) hd
  refine ⟨z, ?_, ?_, ?_⟩
  · rw [spawned, hparse]
    simp only [Option.bind_some, List.cons_append, List.nil_append, exec, execStmt]
    rw [exec_append, hq]
    exact hz
  · intro k; rw [hze, hqe]; rfl
  · intro n
    rw [hzc]
    rcases hqc n with ⟨v, hv, hc⟩ | ⟨hno, hc⟩
    · exact .inl ⟨v, (hl _ hv).2.1, (hl _ hv).2.2, hc⟩
    · exact .inr ⟨hdef n (by cases n <;> decide) hno, hc⟩

end Verif.Spawn
