import Verif.Spec.Spawn

/-! The interpreter reads back what the main process wrote. -/
namespace Verif.Spawn
open Verif.Config Verif.Spec

theorem dropPrefix_append (p r : Str) : dropPrefix p (p ++ r) = some r := by
  induction p with
  | nil => cases r <;> rfl
  | cons c p ih => simp [dropPrefix, ih]

/-! ## Texts in quotes -/

theorem readStr_plain (s r : Str) (h : Plain s) : readStr '\'' (s ++ '\'' :: r) = some (s, r) := by
  induction s with
  | nil => rw [List.nil_append, readStr]
           · simp
           · intro e t h; simp at h
  | cons c t ih =>
    obtain ⟨h1, h2, h3, h4⟩ := h
    simp only [List.mem_cons, not_or] at h1 h2 h3 h4
    have := ih ⟨h1.2, h2.2, h3.2, h4.2⟩
    rw [List.cons_append, readStr]
    · simp [this, Ne.symm h1.1, Ne.symm h2.1, Ne.symm h3.1, Ne.symm h4.1]
    · intro e t' hc; exact absurd hc (Ne.symm h2.1)

theorem denotes_plain (s : Str) (h : Plain s) : Denotes s s := by
  induction s with
  | nil => exact .nil
  | cons c t ih =>
    obtain ⟨h1, h2, h3, h4⟩ := h
    simp only [List.mem_cons, not_or] at h1 h2 h3 h4
    exact .char (by simp [Ne.symm h1.1, Ne.symm h2.1, Ne.symm h3.1, Ne.symm h4.1]) (ih ⟨h1.2, h2.2, h3.2, h4.2⟩)

theorem readStr_denotes {s u : Str} (h : Denotes s u) (r : Str) : readStr '\'' (s ++ '\'' :: r) = some (u, r) := by
  induction h with
  | nil => rw [List.nil_append, readStr]
           · simp
           · intro e t h; simp at h
  | @char c s u hc _ ih =>
    simp only [List.mem_cons, List.not_mem_nil, or_false, not_or] at hc
    rw [List.cons_append, readStr]
    · simp [ih, hc.1, hc.2.1, hc.2.2.1, hc.2.2.2]
    · intro e t' he; exact absurd he hc.2.1
  | @escape c d s u hc _ ih =>
    have : unescape c = some [d] := by
      simp only [List.mem_cons, Prod.mk.injEq, List.not_mem_nil, or_false] at hc
      rcases hc with ⟨rfl, rfl⟩ | ⟨rfl, rfl⟩ | ⟨rfl, rfl⟩ | ⟨rfl, rfl⟩ | ⟨rfl, rfl⟩ | ⟨rfl, rfl⟩ <;> decide
    simp [readStr, this, ih]
  | @backslash c s u hc _ ih =>
    have : unescape c = some ['\\', c] := by
      simp only [List.mem_cons, List.not_mem_nil, or_false, not_or] at hc
      simp [unescape, hc]
    simp [readStr, this, ih]

theorem strLit_denotes {s u : Str} (h : Denotes s u) (r : Str) : strLit ('\'' :: (s ++ '\'' :: r)) = some (u, r) := by
  simp [strLit, readStr_denotes h r]

theorem strLit_plain (s r : Str) (h : Plain s) : strLit ('\'' :: (s ++ '\'' :: r)) = some (s, r) := by
  simp [strLit, readStr_plain s r h]

theorem quoteOf_cases (s : Str) : quoteOf s = '\'' ∨ quoteOf s = '"' := by
  unfold quoteOf; split <;> simp

theorem readStr_escape (q : Char) (hq : q = '\'' ∨ q = '"') (s r : Str) :
    readStr q (escape q s ++ q :: r) = some (s, r) := by
  induction s with
  | nil =>
    rw [escape, List.nil_append, readStr]
    · simp
    · intro e t h; rcases hq with rfl | rfl <;> simp at h
  | cons c t ih =>
    have hesc : ∀ e u, unescape e = some u →
        readStr q ('\\' :: e :: (escape q t ++ q :: r)) = some (u ++ t, r) := by
      intro e u hu; simp [readStr, hu, ih]
    simp only [escape]
    split
    · rename_i hc; subst hc; exact hesc '\\' ['\\'] (by decide)
    · split
      · rename_i hc; subst hc
        rcases hq with rfl | rfl
        · exact hesc '\'' ['\''] (by decide)
        · exact hesc '"' ['"'] (by decide)
      · split
        · rename_i hc; subst hc; exact hesc 'n' ['\n'] (by decide)
        · split
          · rename_i hc; subst hc; exact hesc 'r' ['\r'] (by decide)
          · split
            · rename_i hc; subst hc; exact hesc 't' ['\t'] (by decide)
            · rename_i h1 h2 h3 h4 h5
              rw [List.append_assoc, List.singleton_append, readStr]
              · simp [ih, h1, h2, h3, h4]
              · intro e t' hc; exact absurd hc h1

theorem strLit_repr (s r : Str) : strLit (reprStr s ++ r) = some (s, r) := by
  have := readStr_escape (quoteOf s) (quoteOf_cases s) s r
  rcases quoteOf_cases s with h | h <;> rw [h] at this <;> simp [reprStr, strLit, h, this]

/-! ## Numbers -/

theorem readNat_digits (n : Nat) : readNat (Nat.toDigits 10 n) = some n := by
  have h1 : Nat.toDigits 10 n ≠ [] := Nat.toDigits_ne_nil
  have h2 : (Nat.toDigits 10 n).all Char.isDigit = true := by
    rw [List.all_eq_true]
    exact fun c hc => Nat.isDigit_of_mem_toDigits (by decide) (by decide) hc
  simp only [readNat, h1, h2, ne_eq, not_false_eq_true, and_self, if_true]
  rw [Nat.ofDigitChars_toDigits (by decide) (by decide)]

theorem digits_head (n : Nat) : ∃ c t, Nat.toDigits 10 n = c :: t ∧ c.isDigit = true := by
  cases h : Nat.toDigits 10 n with
  | nil => exact absurd h Nat.toDigits_ne_nil
  | cons c t => exact ⟨c, t, rfl, Nat.isDigit_of_mem_toDigits (by decide) (by decide) (h ▸ List.mem_cons_self)⟩

theorem not_minus {c : Char} (h : c.isDigit = true) : c ≠ '-' := by rintro rfl; revert h; decide

theorem readInt_show (i : Int) : readInt (showInt i) = some i := by
  cases i with
  | ofNat n =>
    obtain ⟨c, t, hd, hc⟩ := digits_head n
    have hr := readNat_digits n
    simp only [showInt]
    rw [hd] at hr ⊢
    rw [readInt]
    · rw [hr]; rfl
    · intro ds h; injection h with h _; exact not_minus hc h
  | negSucc n =>
    simp only [showInt, readInt, readNat_digits, Option.map_some]
    congr 1

/-- The characters of numbers. -/
def NumChar (c : Char) : Prop := c.isDigit = true ∨ c = '.' ∨ c = 'e' ∨ c = '-' ∨ c = '+'

theorem showInt_chars (i : Int) : ∀ c ∈ showInt i, NumChar c := by
  intro c hc
  cases i with
  | ofNat n => exact .inl (Nat.isDigit_of_mem_toDigits (by decide) (by decide) hc)
  | negSucc n =>
    simp only [showInt, List.mem_cons] at hc
    rcases hc with rfl | hc
    · exact .inr (.inr (.inr (.inl rfl)))
    · exact .inl (Nat.isDigit_of_mem_toDigits (by decide) (by decide) hc)

theorem showInt_ne_nil (i : Int) : showInt i ≠ [] := by
  cases i with
  | ofNat n => exact Nat.toDigits_ne_nil
  | negSucc n => simp [showInt]

theorem numChar_ne {c d : Char} (h : NumChar c) (hd : d ∈ ['T', 'F', 'N', ')', '\'', '"', ',', '}', ';', '{']) : c ≠ d := by
  rintro rfl
  simp only [List.mem_cons, List.not_mem_nil, or_false] at hd
  rcases hd with rfl | rfl | rfl | rfl | rfl | rfl | rfl | rfl | rfl | rfl <;>
    (rcases h with h | h | h | h | h <;> revert h <;> decide)

theorem readInt_float (F : FloatText) (c : Nat) : readInt (F.shown c) = none := by
  have hbad : ∀ ds : Str, ('.' ∈ ds ∨ 'e' ∈ ds) → readNat ds = none := by
    intro ds h
    have : ¬ (ds.all Char.isDigit = true) := by
      intro ha
      rw [List.all_eq_true] at ha
      rcases h with h | h
      · have := ha _ h; revert this; decide
      · have := ha _ h; revert this; decide
    simp [readNat, this]
  have h := F.not_int c
  revert h
  generalize F.shown c = l
  intro h
  unfold readInt
  split
  · rename_i ds
    rw [hbad ds (by simpa using h)]; rfl
  · rw [hbad _ h]; rfl

theorem readToken_int (F : FloatText) (i : Int) : readToken F (showInt i) = some (.int i) := by
  have h := showInt_chars i
  have hn := showInt_ne_nil i
  have hne : ∀ w : Str, (∃ d t, w = d :: t ∧ d ∈ ['T', 'F', 'N']) → showInt i ≠ w := by
    rintro w ⟨d, t, rfl, hd⟩ he
    refine numChar_ne (h d (by rw [he]; simp)) (d := d) ?_ rfl
    simp only [List.mem_cons, List.not_mem_nil, or_false] at hd ⊢; grind
  have h1 := hne "True".toList ⟨'T', "rue".toList, rfl, by simp⟩
  have h2 := hne "False".toList ⟨'F', "alse".toList, rfl, by simp⟩
  have h3 := hne "None".toList ⟨'N', "one".toList, rfl, by simp⟩
  simp only [readToken, h1, h2, h3, if_false, readInt_show]

theorem readToken_float (F : FloatText) (c : Nat) : readToken F (F.shown c) = some (.float c) := by
  have h := F.chars c
  have hne : ∀ w : Str, (∃ d t, w = d :: t ∧ d ∈ ['T', 'F', 'N']) → F.shown c ≠ w := by
    rintro w ⟨d, t, rfl, hd⟩ he
    refine numChar_ne (h d (by rw [he]; simp)) (d := d) ?_ rfl
    simp only [List.mem_cons, List.not_mem_nil, or_false] at hd ⊢; grind
  have h1 := hne "True".toList ⟨'T', "rue".toList, rfl, by simp⟩
  have h2 := hne "False".toList ⟨'F', "alse".toList, rfl, by simp⟩
  have h3 := hne "None".toList ⟨'N', "one".toList, rfl, by simp⟩
  simp only [readToken, h1, h2, h3, if_false, readInt_float, F.read_shown, Option.map_some]

theorem takeWhile_stop {p : Char → Bool} {l r : Str} {d : Char} (hl : ∀ c ∈ l, p c = true) (hd : p d = false) :
    (l ++ d :: r).takeWhile p = l ∧ (l ++ d :: r).dropWhile p = d :: r := by
  induction l with
  | nil => simp [List.takeWhile, List.dropWhile, hd]
  | cons c l ih =>
    have := ih fun x hx => hl x (by simp [hx])
    simp [hl c (by simp), this]

theorem takeWhile_all {p : Char → Bool} {l : Str} (hl : ∀ c ∈ l, p c = true) : l.takeWhile p = l ∧ l.dropWhile p = [] := by
  induction l with
  | nil => simp
  | cons c l ih =>
    have := ih fun x hx => hl x (by simp [hx])
    simp [hl c (by simp), this]

/-! ## Statements -/

/-- The values a parameter of each type can have when it is not the default. -/
def Typed : Kind → PyVal → Prop
  | .bool, .bool _ => True
  | .int, .int _ => True
  | .float, .float _ => True
  | .exactStr, .str _ => True
  | _, _ => False

theorem strLit_head {l r : Str} (h : ∀ c t, l = c :: t → c ≠ '\'' ∧ c ≠ '"') (hl : l ≠ []) : strLit (l ++ r) = none := by
  cases l with
  | nil => exact absurd rfl hl
  | cons c t =>
    have := h c t rfl
    simp [strLit, this.1, this.2]

theorem lit_token (F : FloatText) (tok r : Str) (v : PyVal) (hl : tok ≠ []) (h : ∀ c ∈ tok, c ≠ ')' ∧ c ≠ '\'' ∧ c ≠ '"')
    (hv : readToken F tok = some v) : lit F (tok ++ ')' :: r) = some (v, ')' :: r) := by
  have h1 : strLit (tok ++ ')' :: r) = none :=
    strLit_head (fun c t e => (h c (by rw [e]; simp)).2) hl
  have h2 := takeWhile_stop (p := fun c => decide (c ≠ ')')) (l := tok) (r := r) (d := ')')
    (fun c hc => by simpa using (h c hc).1) (by simp)
  simp only [lit, h1, h2.1, h2.2, hv, Option.map_some]

theorem lit_text (F : FloatText) (k : Kind) (v : PyVal) (r : Str) (ht : Typed k v)
    (hp : ∀ s, v = .str s → Plain s.toList) : lit F (litText F v ++ ')' :: r) = some (v, ')' :: r) := by
  have num : ∀ {l : Str}, (∀ c ∈ l, NumChar c) → ∀ c ∈ l, c ≠ ')' ∧ c ≠ '\'' ∧ c ≠ '"' := fun h c hc =>
    ⟨numChar_ne (h c hc) (by simp), numChar_ne (h c hc) (by simp), numChar_ne (h c hc) (by simp)⟩
  cases v with
  | none => cases k <;> exact absurd ht (by simp [Typed])
  | other n => cases k <;> exact absurd ht (by simp [Typed])
  | bool b => cases b <;> exact lit_token F _ r _ (by simp [litText]) (by simp [litText]) rfl
  | int i => exact lit_token F _ r _ (showInt_ne_nil i) (num (showInt_chars i)) (readToken_int F i)
  | float c =>
    refine lit_token F _ r _ ?_ (num (F.chars c)) (readToken_float F c)
    intro h
    have := F.not_int c
    simp only [litText] at h
    rw [h] at this; simp at this
  | str s =>
    have := strLit_plain s.toList (')' :: r) (hp s rfl)
    simp only [litText, List.cons_append, List.append_assoc, List.nil_append, lit, this, String.ofList_toList]

theorem drop_name (m n : Name) (x : Str) :
    dropPrefix (m.text ++ ".put(".toList) (n.text ++ (".put(".toList ++ x)) = if m = n then some x else none := by
  cases m <;> cases n <;> rfl

theorem drop_runtime (n : Name) (x : Str) : dropPrefix "MpiRuntimeEnv.put(".toList (n.text ++ (".put(".toList ++ x)) = none := by
  cases n <;> rfl

theorem drop_backend (n : Name) (x : Str) : dropPrefix "Backend.put(".toList (n.text ++ (".put(".toList ++ x)) = none := by
  cases n <;> rfl

theorem stmt_put (F : FloatText) (n : Name) (k : Kind) (v : PyVal) (r : Str) (ht : Typed k v)
    (hp : ∀ s, v = .str s → Plain s.toList) : stmt F (putText F n v ++ r) = some (.put n v, r) := by
  have hlit : lit F (litText F v ++ ')' :: r) = some (v, ')' :: r) := lit_text F k v r ht hp
  have e : putText F n v ++ r = "cfg.".toList ++ (n.text ++ (".put(".toList ++ (litText F v ++ ')' :: r))) := by
    simp [putText]
  generalize litText F v ++ ')' :: r = x at hlit e
  rw [e]
  have h1 : dropPrefix "import ".toList ("cfg.".toList ++ (n.text ++ (".put(".toList ++ x))) = none := rfl
  have h2 : dropPrefix "os.environ[".toList ("cfg.".toList ++ (n.text ++ (".put(".toList ++ x))) = none := rfl
  have h3 : dropPrefix "unidist.init()".toList ("cfg.".toList ++ (n.text ++ (".put(".toList ++ x))) = none := rfl
  simp only [stmt, h1, h2, h3, dropPrefix_append, Option.bind_some, drop_runtime, drop_backend, drop_name, names]
  have h4 : dropPrefix ")".toList (')' :: r) = some r := dropPrefix_append ")".toList r
  have h5 : dropPrefix [')'] (')' :: r) = some r := h4
  cases n <;> simp [List.findSome?, hlit, h5]

theorem stmt_backend (F : FloatText) (r : Str) :
    stmt F ("cfg.Backend.put('mpi')".toList ++ r) = some (.backend "mpi".toList, r) := by rfl

theorem stmt_init (F : FloatText) (r : Str) : stmt F ("unidist.init()".toList ++ r) = some (.init, r) := by rfl

theorem stmt_import (F : FloatText) (w r : Str) (hw : ';' ∉ w) (hr : r = [] ∨ ∃ t, r = ';' :: t) :
    stmt F ("import ".toList ++ (w ++ r)) = some (.imp w, r) := by
  have hw' : ∀ c ∈ w, (decide (c ≠ ';')) = true := by
    intro c hc; simp only [decide_eq_true_eq]; rintro rfl; exact hw hc
  simp only [stmt, dropPrefix_append]
  rcases hr with rfl | ⟨t, rfl⟩
  · have h1 : w.takeWhile (fun c => decide (c ≠ ';')) = w := by
      exact (takeWhile_all hw').1
    have h2 : w.dropWhile (fun c => decide (c ≠ ';')) = [] := by
      exact (takeWhile_all hw').2
    simp only [List.append_nil, h1, h2]
  · have := takeWhile_stop (p := fun c => decide (c ≠ ';')) (l := w) (r := t) (d := ';') hw' (by simp)
    rw [this.1, this.2]

theorem env_split (k v r A A' B B' : Str) (h1 : A' = A ++ ['\'']) (h2 : B' = '\'' :: (B ++ ['\''])) :
    (A' ++ (k ++ (B' ++ (v ++ ['\''])))) ++ r = A ++ ('\'' :: (k ++ '\'' :: (B ++ ('\'' :: (v ++ '\'' :: r))))) := by
  subst h1 h2; simp

theorem runtime_split (d r A B : Str) (h : B = ['}', '}']) : (A ++ (d ++ B)) ++ r = A ++ (d ++ '}' :: '}' :: r) := by
  subst h; simp

theorem stmt_setenv (F : FloatText) (k : Str) (v : EnvVal) (r : Str) (hk : Plain k) {u : Str} (hv : Denotes v.text u) :
    stmt F (envText k v ++ r) = some (.setenv k u, r) := by
  have s1 : "os.environ['".toList = "os.environ[".toList ++ ['\''] := by decide +kernel
  have s2 : "'] = '".toList = '\'' :: ("] = ".toList ++ ['\'']) := by decide +kernel
  have e : envText k v ++ r = "os.environ[".toList ++ ('\'' :: (k ++ '\'' :: ("] = ".toList ++ ('\'' :: (v.text ++ '\'' :: r))))) :=
    env_split k v.text r _ _ _ _ s1 s2
  have h1 : ∀ x : Str, dropPrefix "import ".toList ("os.environ[".toList ++ x) = none := fun x => rfl
  rw [e]
  simp only [stmt, h1, dropPrefix_append, strLit_plain _ _ hk, strLit_denotes hv, Option.bind_some, Option.map_some]

theorem envVal_repr (v : EnvVal) (d : Char) (r : Str) (hd : d = ',' ∨ d = '}') : envVal (reprVal v ++ d :: r) = some (v, d :: r) := by
  cases v with
  | str s => simp [envVal, reprVal, strLit_repr]
  | int i =>
    have hc := showInt_chars i
    have h1 : strLit (showInt i ++ d :: r) = none :=
      strLit_head (fun c t e => ⟨numChar_ne (hc c (by rw [e]; simp)) (by simp), numChar_ne (hc c (by rw [e]; simp)) (by simp)⟩)
        (showInt_ne_nil i)
    have h2 := takeWhile_stop (p := fun c => decide (c ≠ ',' ∧ c ≠ '}')) (l := showInt i) (r := r) (d := d)
      (fun c h => by
        have a : c ≠ ',' := numChar_ne (hc c h) (by simp)
        have b : c ≠ '}' := numChar_ne (hc c h) (by simp)
        simp [a, b])
      (by rcases hd with rfl | rfl <;> simp)
    simp only [envVal, reprVal, h1, h2.1, h2.2, readInt_show, Option.map_some]

theorem entries_repr (d : List (Str × EnvVal)) (hd : d ≠ []) (fuel : Nat) (hf : d.length ≤ fuel) (r : Str) :
    entries fuel (reprEntries d ++ '}' :: r) = some (d, r) := by
  induction d generalizing fuel with
  | nil => exact absurd rfl hd
  | cons e es ih =>
    obtain ⟨k, v⟩ := e
    cases fuel with
    | zero => simp at hf
    | succ fuel =>
      cases es with
      | nil =>
        simp only [reprEntries, entries, List.append_assoc, strLit_repr, Option.bind_some, dropPrefix_append,
          envVal_repr v '}' r (Or.inr rfl)]
      | cons e' es' =>
        have h := ih (by simp) fuel (by simpa using hf)
        have h3 : ∀ x, envVal (reprVal v ++ (", ".toList ++ x)) = some (v, ", ".toList ++ x) := fun x =>
          envVal_repr v ',' (' ' :: x) (Or.inl rfl)
        simp only [reprEntries, entries, List.append_assoc, strLit_repr, Option.bind_some, dropPrefix_append, h3]
        have h4 : ∀ x : Str, ", ".toList ++ x = ',' :: ' ' :: x := fun x => rfl
        rw [h4]
        simp only [h, Option.map_some]

theorem reprStr_head (s : Str) : ∃ t, reprStr s = quoteOf s :: t := ⟨_, rfl⟩

theorem reprEntries_length (d : List (Str × EnvVal)) : d.length ≤ (reprEntries d).length := by
  match d with
  | [] => simp
  | [(k, v)] => simp [reprEntries, reprStr]
  | (k, v) :: e :: es =>
    have := reprEntries_length (e :: es)
    simp only [reprEntries, reprStr, List.length_append, List.length_cons, List.cons_append] at this ⊢
    omega

theorem envLit_repr (d : List (Str × EnvVal)) (r : Str) : envLit (reprRuntime d ++ r) = some (d, r) := by
  have e : reprRuntime d ++ r = "{'env_vars': {".toList ++ (reprEntries d ++ '}' :: '}' :: r) :=
    runtime_split (reprEntries d) r _ _ (by decide +kernel)
  rw [e]
  simp only [envLit, dropPrefix_append, Option.bind_some]
  have h4 : dropPrefix "}".toList ('}' :: r) = some r := dropPrefix_append "}".toList r
  cases d with
  | nil => simp only [reprEntries, List.nil_append, Option.bind_some, h4, Option.map_some]
  | cons e' es =>
    have h := entries_repr (e' :: es) (by simp) (reprEntries (e' :: es) ++ '}' :: '}' :: r).length
      (by have := reprEntries_length (e' :: es); simp only [List.length_append, List.length_cons] at this ⊢; omega) ('}' :: r)
    obtain ⟨k, v⟩ := e'
    obtain ⟨t, ht⟩ : ∃ t, reprEntries ((k, v) :: es) ++ '}' :: '}' :: r = quoteOf k :: t := by
      cases es <;> simp [reprEntries, reprStr]
    rw [ht] at h ⊢
    have hq : quoteOf k ≠ '}' := by rcases quoteOf_cases k with h | h <;> rw [h] <;> decide
    split
    · rename_i heq; injection heq with heq _; exact absurd heq hq
    · rw [h]; simp only [Option.bind_some, h4, Option.map_some]

theorem stmt_runtime (F : FloatText) (d : List (Str × EnvVal)) (r : Str) :
    stmt F ("cfg.MpiRuntimeEnv.put(".toList ++ (reprRuntime d ++ [')']) ++ r) = some (.runtime d, r) := by
  have e : "cfg.MpiRuntimeEnv.put(".toList ++ (reprRuntime d ++ [')']) ++ r =
      "cfg.".toList ++ ("MpiRuntimeEnv.put(".toList ++ (reprRuntime d ++ ')' :: r)) := by simp
  rw [e]
  generalize hx : reprRuntime d ++ ')' :: r = x
  have h1 : ∀ x : Str, dropPrefix "import ".toList ("cfg.".toList ++ x) = none := fun x => rfl
  have h2 : ∀ x : Str, dropPrefix "os.environ[".toList ("cfg.".toList ++ x) = none := fun x => rfl
  have h3 : ∀ x : Str, dropPrefix "unidist.init()".toList ("cfg.".toList ++ x) = none := fun x => rfl
  have h4 : dropPrefix ")".toList (')' :: r) = some r := dropPrefix_append ")".toList r
  simp only [stmt, h1, h2, h3, dropPrefix_append, Option.bind_some]
  rw [← hx, envLit_repr]
  simp only [Option.bind_some, h4, Option.map_some]

/-! ## Programs -/

/-- A text is read as a statement wherever the statement ends. -/
def Reads (F : FloatText) (t : Str) (s : Stmt) : Prop :=
  ∀ r, (r = [] ∨ ∃ u, r = ';' :: u) → stmt F (t ++ r) = some (s, r)

theorem parse_join (F : FloatText) (l : List (Str × Stmt)) (h : ∀ p ∈ l, Reads F p.1 p.2) (hn : l ≠ []) (fuel : Nat)
    (hf : l.length ≤ fuel) : parse F fuel (join (l.map (·.1))) = some (l.map (·.2)) := by
  induction l generalizing fuel with
  | nil => exact absurd rfl hn
  | cons a l ih =>
    have hr := h a (by simp)
    cases fuel with
    | zero => simp at hf
    | succ fuel =>
      cases l with
      | nil =>
        have := hr [] (Or.inl rfl)
        simp only [List.append_nil] at this
        simp only [List.map_cons, List.map_nil, join, parse, this, Option.bind_some]
      | cons b l =>
        have := ih (fun p hp => h p (by simp [hp])) (by simp) fuel (by simpa using hf)
        simp only [List.map_cons] at this
        simp only [List.map_cons, join, parse, hr _ (Or.inr ⟨_, rfl⟩), Option.bind_some, this, Option.map_some]

theorem join_length (ts : List Str) (h : ∀ t ∈ ts, t ≠ []) : ts.length ≤ (join ts).length := by
  match ts with
  | [] => simp
  | [t] =>
    have := List.length_pos_iff.2 (h t (by simp))
    simp only [join, List.length_cons, List.length_nil]
    omega
  | t :: u :: ts =>
    have := join_length (u :: ts) fun t ht => h t (by simp [ht])
    simp only [join, List.length_append, List.length_cons] at this ⊢
    omega

theorem reads_ne_nil {F : FloatText} {t : Str} {s : Stmt} (h : Reads F t s) : t ≠ [] := by
  rintro rfl
  have := h [] (Or.inl rfl)
  simp only [List.append_nil] at this
  have h' : stmt F [] = none := rfl
  rw [h'] at this; cases this

/-- What `parse` makes of a program whose statements are readable. -/
theorem parse_program (F : FloatText) (l : List (Str × Stmt)) (h : ∀ p ∈ l, Reads F p.1 p.2) (hn : l ≠ []) :
    parse F (join (l.map (·.1))).length (join (l.map (·.1))) = some (l.map (·.2)) := by
  refine parse_join F l h hn _ ?_
  have := join_length (l.map (·.1)) fun t ht => by
    obtain ⟨p, hp, rfl⟩ := List.mem_map.1 ht
    exact reads_ne_nil (h p hp)
  simpa using this

end Verif.Spawn
