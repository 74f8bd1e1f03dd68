import Verif.Model.Logging

/-! Logging of the MPI backend (C119, C120). -/
namespace Verif.Props
open Verif.Logging

/-! ### C119 -/

/-- The messages that should be in the file: those written while logging is switched on, that is, after the logger was last got with `MpiLog` set. -/
def wantedLog (on : Bool) : List Ev → List Nat
  | [] => []
  | .getLogger b :: t => wantedLog b t
  | .debug m :: t => if on then m :: wantedLog on t else wantedLog on t
  | _ :: t => wantedLog on t

/-- All messages the backend produces. -/
def allMessages : List Ev → List Nat
  | [] => []
  | .debug m :: t => m :: allMessages t
  | _ :: t => allMessages t

/-- The application adds no handler before the backend gets its logger for the first time. -/
def HandlersLate : List Ev → Prop
  | [] => True
  | .getLogger _ :: _ => True
  | .rootHandler :: _ => False
  | .otherHandler :: _ => False
  | _ :: t => HandlersLate t

/-- **C119**, full claim: whatever the application does with its own logging, the file of the backend contains exactly the messages written while
logging was switched on. -/
def C119_full : Prop := ∀ es : List Ev, (State.init.run es).file = wantedLog false es

/-- An application that has configured logging before gets no file although logging is switched on. -/
theorem C119_nothing_written_violated : ¬ C119_full := fun h => absurd (h [.rootHandler, .getLogger true, .debug 1]) (by decide)

/-- An application that logs at level `DEBUG` gets the file although logging is switched off. -/
theorem C119_written_violated : ∃ es, (State.init.run es).file ≠ wantedLog false es ∧ HandlersLate es ∧ wantedLog false es = [] :=
  ⟨[.getLogger false, .rootLevel 10, .debug 1], by decide, trivial, rfl⟩

/-- Once the logger is there. -/
theorem log_after (s : State) (on : Bool) (es : List Ev) (h1 : s.files = 1) (h2 : 10 < s.rootLevel) (h3 : s.level = if on then 10 else 0)
    (hl : ∀ n, Ev.rootLevel n ∈ es → 10 < n) : (s.run es).file = s.file ++ wantedLog on es := by
  induction es generalizing s on with
  | nil => simp [State.run, wantedLog]
  | cons e es ih =>
    have hl' : ∀ n, Ev.rootLevel n ∈ es → 10 < n := fun n hn => hl n (List.mem_cons_of_mem _ hn)
    have hrun : s.run (e :: es) = (s.step e).run es := rfl
    rw [hrun]
    cases e with
    | rootHandler => exact ih (s.step .rootHandler) on h1 h2 h3 hl'
    | rootLevel n => exact ih (s.step (.rootLevel n)) on h1 (hl n (by simp)) h3 hl'
    | otherHandler => exact ih (s.step .otherHandler) on h1 h2 h3 hl'
    | getLogger a =>
      have hh : s.hasHandlers = true := by simp [State.hasHandlers, h1]
      have e1 : s.step (.getLogger a) = { s with level := if a then debugLevel else 0 } := by simp [State.step, State.getLogger, hh]
      rw [e1]
      exact ih { s with level := if a then debugLevel else 0 } a h1 h2 (by cases a <;> rfl) hl'
    | debug m =>
      cases on with
      | true =>
        have e1 : s.step (.debug m) = { s with file := s.file ++ [m] } := by
          simp [State.step, State.debug, State.effective, h3, debugLevel, h1]
        rw [e1, ih { s with file := s.file ++ [m] } true h1 h2 h3 hl']
        simp [wantedLog]
      | false =>
        have e1 : s.step (.debug m) = s := by
          simp only [State.step, State.debug, State.effective, h3, debugLevel]
          rw [if_neg]; simp; omega
        rw [e1, ih _ false h1 h2 h3 hl']
        simp [wantedLog]

/-- If the application adds its handlers after the backend has got its logger, and never sets its level to `DEBUG` or below, the file contains exactly
the messages written while logging was switched on, each once. Missing: applications that configure logging before, or log at level `DEBUG`. -/
theorem C119_log_partial (es : List Ev) (hh : HandlersLate es) (hl : ∀ n, Ev.rootLevel n ∈ es → 10 < n) :
    (State.init.run es).file = wantedLog false es := by
  have key : ∀ (es : List Ev) (s : State), HandlersLate es → (∀ n, Ev.rootLevel n ∈ es → 10 < n) → s.files = 0 → s.others = 0 → s.rootHandlers = 0 →
      s.level = 0 → 10 < s.rootLevel → s.file = [] → (s.run es).file = wantedLog false es := by
    intro es
    induction es with
    | nil => intro s _ _ _ _ _ _ _ h; exact h
    | cons e es ih =>
      intro s hh hl h1 h2 h3 h4 h5 h6
      have hl' : ∀ n, Ev.rootLevel n ∈ es → 10 < n := fun n hn => hl n (List.mem_cons_of_mem _ hn)
      have hrun : s.run (e :: es) = (s.step e).run es := rfl
      rw [hrun]
      cases e with
      | rootHandler => exact absurd hh id
      | otherHandler => exact absurd hh id
      | rootLevel n => exact ih _ hh hl' h1 h2 h3 h4 (hl n (by simp)) h6
      | getLogger a =>
        have hn : s.hasHandlers = false := by simp [State.hasHandlers, h1, h2, h3]
        have e1 : s.step (.getLogger a) = { s with files := s.files + 1, level := if a then debugLevel else 0 } := by
          simp [State.step, State.getLogger, hn]
        rw [e1, log_after { s with files := s.files + 1, level := if a then debugLevel else 0 } a es (by simp [h1]) h5 (by cases a <;> rfl) hl']
        simp [h6, wantedLog]
      | debug m =>
        have e1 : s.step (.debug m) = s := by
          simp only [State.step, State.debug, State.effective, h4, debugLevel]
          rw [if_neg]; simp; omega
        rw [e1]
        exact ih s hh hl' h1 h2 h3 h4 h5 h6
  exact key es State.init hh hl rfl rfl rfl rfl (by decide) rfl

/-- What is in the file, if there is one: the messages written after the logger was first got, while logging was switched on or the level of the
application was `DEBUG` or below. -/
def writtenLog (root : Nat) (on got : Bool) : List Ev → List Nat
  | [] => []
  | .getLogger b :: t => writtenLog root b true t
  | .rootLevel n :: t => writtenLog n on got t
  | .debug m :: t => if got && (on || decide (root ≤ 10)) then m :: writtenLog root on got t else writtenLog root on got t
  | _ :: t => writtenLog root on got t

/-- Once the logger is there, with or without a file. -/
theorem written_after (s : State) (on : Bool) (es : List Ev) (h1 : s.files ≤ 1) (hh : s.hasHandlers = true) (h3 : s.level = if on then 10 else 0) :
    (s.run es).file = s.file ++ if s.files = 1 then writtenLog s.rootLevel on true es else [] := by
  induction es generalizing s on with
  | nil => simp [State.run, writtenLog]
  | cons e es ih =>
    have hrun : s.run (e :: es) = (s.step e).run es := rfl
    rw [hrun]
    cases e with
    | rootHandler => exact ih (s.step .rootHandler) on h1 (by simp [State.step, State.hasHandlers]) h3
    | rootLevel n => exact ih (s.step (.rootLevel n)) on h1 hh h3
    | otherHandler => exact ih (s.step .otherHandler) on h1 (by simp [State.step, State.hasHandlers]) h3
    | getLogger a =>
      have e1 : s.step (.getLogger a) = { s with level := if a then debugLevel else 0 } := by simp [State.step, State.getLogger, hh]
      rw [e1]
      exact ih { s with level := if a then debugLevel else 0 } a h1 hh (by cases a <;> rfl)
    | debug m =>
      by_cases he : s.effective ≤ debugLevel
      · have e1 : s.step (.debug m) = { s with file := s.file ++ List.replicate s.files m } := by
          simp only [State.step, State.debug]; rw [if_pos he]
        have hc : (on || decide (s.rootLevel ≤ 10)) = true := by
          cases on with
          | true => rfl
          | false => simpa [State.effective, h3, debugLevel] using he
        rw [e1, ih { s with file := s.file ++ List.replicate s.files m } on h1 hh h3]
        by_cases hf : s.files = 1
        · simp [hf, writtenLog, hc]
        · have : s.files = 0 := by omega
          simp [this]
      · have e1 : s.step (.debug m) = s := by simp only [State.step, State.debug]; rw [if_neg he]
        have hc : (on || decide (s.rootLevel ≤ 10)) = false := by
          cases on with
          | true => exact absurd (by simp [State.effective, h3, debugLevel]) he
          | false => simpa [State.effective, h3, debugLevel] using he
        rw [e1, ih s on h1 hh h3]
        simp [writtenLog, hc]

open Classical in
/-- **C119**, exactly: there is a file if the application has added no handler before the backend gets its logger; in it are the messages written from
then on while logging is switched on or the level of the application is `DEBUG` or below. -/
theorem C119_exactly_partial (es : List Ev) :
    (State.init.run es).file = if HandlersLate es then writtenLog 30 false false es else [] := by
  have key : ∀ (es : List Ev) (s : State), s.files = 0 → s.level = 0 → s.file = [] →
      (s.run es).file = if HandlersLate es ∧ s.others = 0 ∧ s.rootHandlers = 0 then writtenLog s.rootLevel false false es else [] := by
    intro es
    induction es with
    | nil => intro s h1 h4 h6; simp [State.run, writtenLog, h6]
    | cons e es ih =>
      intro s h1 h4 h6
      have hrun : s.run (e :: es) = (s.step e).run es := rfl
      rw [hrun]
      cases e with
      | rootHandler =>
        rw [ih (s.step .rootHandler) h1 h4 h6, if_neg (by simp [State.step]), if_neg (by simp [HandlersLate])]
      | otherHandler =>
        rw [ih (s.step .otherHandler) h1 h4 h6, if_neg (by simp [State.step]), if_neg (by simp [HandlersLate])]
      | rootLevel n => exact ih (s.step (.rootLevel n)) h1 h4 h6
      | debug m =>
        have e1 : s.step (.debug m) = s := by
          simp only [State.step, State.debug]; split <;> simp [h1]
          rw [← h1]
        rw [e1, ih s h1 h4 h6]
        simp [HandlersLate, writtenLog]
      | getLogger a =>
        by_cases hn : s.others = 0 ∧ s.rootHandlers = 0
        · have hf : s.hasHandlers = false := by simp [State.hasHandlers, h1, hn.1, hn.2]
          have e1 : s.step (.getLogger a) = { s with files := s.files + 1, level := if a then debugLevel else 0 } := by
            simp [State.step, State.getLogger, hf]
          rw [e1, written_after { s with files := s.files + 1, level := if a then debugLevel else 0 } a es (by simp [h1])
            (by simp [State.hasHandlers]) (by cases a <;> rfl)]
          simp [h6, h1, hn, HandlersLate, writtenLog]
        · have hf : s.hasHandlers = true := by simp only [State.hasHandlers, h1, bne_iff_ne]; omega
          have e1 : s.step (.getLogger a) = { s with level := if a then debugLevel else 0 } := by simp [State.step, State.getLogger, hf]
          rw [e1, written_after { s with level := if a then debugLevel else 0 } a es (by simp [h1]) hf (by cases a <;> rfl)]
          have : ¬ (HandlersLate (.getLogger a :: es) ∧ s.others = 0 ∧ s.rootHandlers = 0) := fun h => hn h.2
          simp [h6, h1, this]
  have := key es State.init rfl rfl rfl
  simpa [State.init] using this

/-- Switched on, off, and the application at level `DEBUG`. -/
example : (State.init.run [.debug 1, .getLogger true, .debug 2, .otherHandler, .getLogger false, .debug 3, .rootLevel 10, .debug 4]).file = [2, 4] := by
  rw [C119_exactly_partial, if_pos (by simp [HandlersLate])]
  rfl

/-- In any case, no message is written twice, although several modules get the same logger. -/
theorem C119_at_most_once_partial (es : List Ev) : ((State.init.run es).file).Sublist (allMessages es) := by
  have key : ∀ (es : List Ev) (s : State), s.files ≤ 1 → ∃ l : List Nat, l.Sublist (allMessages es) ∧ (s.run es).file = s.file ++ l := by
    intro es
    induction es with
    | nil => intro s _; exact ⟨[], List.Sublist.refl _, by simp [State.run]⟩
    | cons e es ih =>
      intro s h
      have hrun : s.run (e :: es) = (s.step e).run es := rfl
      rw [hrun]
      cases e with
      | rootHandler => exact ih _ h
      | rootLevel n => exact ih _ h
      | otherHandler => exact ih _ h
      | getLogger a =>
        have hf : (s.step (.getLogger a)).files ≤ 1 := by
          cases hh : s.hasHandlers with
          | true => simpa [State.step, State.getLogger, hh] using h
          | false =>
            have : s.files = 0 := by simp [State.hasHandlers] at hh; exact hh.1.2
            simp [State.step, State.getLogger, hh, this]
        have hfile : (s.step (.getLogger a)).file = s.file := by
          cases hh : s.hasHandlers <;> simp [State.step, State.getLogger, hh]
        obtain ⟨l, h1, h2⟩ := ih _ hf
        exact ⟨l, h1, by rw [h2, hfile]⟩
      | debug m =>
        simp only [State.step, State.debug]
        split
        · obtain ⟨l, h1, h2⟩ := ih { s with file := s.file ++ List.replicate s.files m } h
          refine ⟨List.replicate s.files m ++ l, ?_, by rw [h2]; simp⟩
          have : s.files = 0 ∨ s.files = 1 := by omega
          rcases this with e | e
          · rw [e]; simpa [allMessages] using h1.cons m
          · rw [e]; simpa [allMessages] using h1
        · obtain ⟨l, h1, h2⟩ := ih s h
          exact ⟨l, by simpa [allMessages] using h1.cons m, h2⟩
  obtain ⟨l, h1, h2⟩ := key es State.init (by decide)
  rw [h2]
  simpa [State.init] using h1

example : (State.init.run [.getLogger true, .getLogger true, .debug 1, .rootHandler, .debug 2, .getLogger false, .debug 3]).file = [1, 2] := by decide

/-! ### C120 -/

/-- What a line shows: every process has a column, four characters wide, from column 16 on; the receiver's is marked by the tip of the arrow, the
others by a point; between sender and receiver there is a line, elsewhere there are blanks; nothing follows. -/
structure ShowsMessage (l : List Char) (name : List Char) (size source dest : Nat) : Prop where
  name : l.take name.length = name ∧ l[name.length]? = some ':'
  columns : ∀ r, r < size → l[16 + 4 * r]? = some (if r = dest then (if dest > source then '>' else '<') else '.')
  between : ∀ r k, r + 1 < size → 1 ≤ k → k ≤ 3 →
    l[16 + 4 * r + k]? = some (if (source ≤ r ∧ r < dest) ∨ (dest ≤ r ∧ r < source) then '-' else ' ')
  width : l.length = 16 + 4 * (size - 1) + 1

/-- **C120**, full claim: every line of the log shows the operation and who sent it to whom. -/
def C120_full : Prop := ∀ (o : Operation) (size source dest : Nat), source < size → dest < size →
  ShowsMessage (logLine size o.name source dest) o.name size source dest

theorem times_length (w : List Char) (n : Nat) : (times w n).length = n * w.length := by
  simp [times]

theorem times4 (a b c d : Char) (n q k : Nat) (hk : k < 4) : (times [a, b, c, d] n)[4 * q + k]? = if q < n then [a, b, c, d][k]? else none := by
  induction n generalizing q with
  | zero => simp [times]
  | succ n ih =>
    have e : times [a, b, c, d] (n + 1) = [a, b, c, d] ++ times [a, b, c, d] n := by simp [times, List.replicate_succ]
    rw [e]
    cases q with
    | zero => rw [List.getElem?_append_left (by simpa using hk)]; simp
    | succ q =>
      rw [List.getElem?_append_right (by simp; omega)]
      have : 4 * (q + 1) + k - [a, b, c, d].length = 4 * q + k := by simp; omega
      rw [this, ih q]
      simp

/-- The part of the line after the name. -/
def logColumns (size source dest : Nat) : List Char :=
  times ['.', ' ', ' ', ' '] (min source dest) ++ arrow source dest ++ times [' ', ' ', ' ', '.'] (size - max source dest - 1)

theorem logLine_eq {size source dest : Nat} {name : List Char} (h : name.length ≤ 15) :
    ∃ p : List Char, p.length = 16 ∧ p.take name.length = name ∧ p[name.length]? = some ':' ∧
      logLine size name source dest = p ++ logColumns size source dest := by
  refine ⟨name ++ ':' :: times [' '] (nameWidth - name.length), ?_, ?_, ?_, ?_⟩
  · simp [times_length, nameWidth]; omega
  · simp
  · simp
  · simp [logLine, logColumns]

theorem columns_length {size source dest : Nat} (hs : source < size) (hd : dest < size) :
    (logColumns size source dest).length = 4 * (size - 1) + 1 := by
  unfold logColumns arrow
  split <;> simp [times_length] <;> omega

/-- The characters of the columns, for an arrow to the right. -/
theorem columns_right {size source dest : Nat} (hd : dest < size) (h : source < dest) (q k : Nat) (hk : k < 4) (hq : 4 * q + k < 4 * (size - 1) + 1) :
    (logColumns size source dest)[4 * q + k]? =
      some (if k = 0 then (if q = dest then '>' else '.') else (if source ≤ q ∧ q < dest then '-' else ' ')) := by
  have e : logColumns size source dest = times ['.', ' ', ' ', ' '] source ++ (times ['.', '-', '-', '-'] (dest - source) ++
      ('>' :: times [' ', ' ', ' ', '.'] (size - dest - 1))) := by
    simp [logColumns, arrow, h, Nat.min_eq_left (Nat.le_of_lt h), Nat.max_eq_right (Nat.le_of_lt h)]
  rw [e]
  by_cases h1 : q < source
  · rw [List.getElem?_append_left (by simp [times_length]; omega), times4 _ _ _ _ _ _ _ hk, if_pos h1]
    have : k = 0 ∨ k = 1 ∨ k = 2 ∨ k = 3 := by omega
    rcases this with rfl | rfl | rfl | rfl <;> simp <;> omega
  · rw [List.getElem?_append_right (by simp [times_length]; omega)]
    have e1 : 4 * q + k - (times ['.', ' ', ' ', ' '] source).length = 4 * (q - source) + k := by simp [times_length]; omega
    rw [e1]
    by_cases h2 : q < dest
    · rw [List.getElem?_append_left (by simp [times_length]; omega), times4 _ _ _ _ _ _ _ hk, if_pos (by omega)]
      have : k = 0 ∨ k = 1 ∨ k = 2 ∨ k = 3 := by omega
      rcases this with rfl | rfl | rfl | rfl <;> simp <;> omega
    · rw [List.getElem?_append_right (by simp [times_length]; omega)]
      have e2 : 4 * (q - source) + k - (times ['.', '-', '-', '-'] (dest - source)).length = 4 * (q - dest) + k := by simp [times_length]; omega
      rw [e2]
      by_cases h3 : q = dest ∧ k = 0
      · obtain ⟨rfl, rfl⟩ := h3; simp
      · cases k with
        | zero =>
          have hq2 : q - dest = (q - dest - 1) + 1 := by omega
          rw [hq2, show 4 * (q - dest - 1 + 1) + 0 = (4 * (q - dest - 1) + 3) + 1 by omega, List.getElem?_cons_succ,
            times4 _ _ _ _ _ _ _ (by omega), if_pos (by omega)]
          simp; omega
        | succ k =>
          rw [show 4 * (q - dest) + (k + 1) = (4 * (q - dest) + k) + 1 by omega, List.getElem?_cons_succ,
            times4 _ _ _ _ _ _ _ (by omega), if_pos (by omega)]
          have : k = 0 ∨ k = 1 ∨ k = 2 := by omega
          rcases this with rfl | rfl | rfl <;> simp <;> omega

/-- The characters of the columns, for an arrow to the left. -/
theorem columns_left {size source dest : Nat} (hs : source < size) (h : dest ≤ source) (q k : Nat) (hk : k < 4) (hq : 4 * q + k < 4 * (size - 1) + 1) :
    (logColumns size source dest)[4 * q + k]? =
      some (if k = 0 then (if q = dest then '<' else '.') else (if dest ≤ q ∧ q < source then '-' else ' ')) := by
  have e : logColumns size source dest = times ['.', ' ', ' ', ' '] dest ++ ('<' :: (times ['-', '-', '-', '.'] (source - dest) ++
      times [' ', ' ', ' ', '.'] (size - source - 1))) := by
    simp [logColumns, arrow, Nat.min_eq_right h, Nat.max_eq_left h, show ¬ source < dest by omega]
  rw [e]
  by_cases h1 : q < dest
  · rw [List.getElem?_append_left (by simp [times_length]; omega), times4 _ _ _ _ _ _ _ hk, if_pos h1]
    have : k = 0 ∨ k = 1 ∨ k = 2 ∨ k = 3 := by omega
    rcases this with rfl | rfl | rfl | rfl <;> simp <;> omega
  · rw [List.getElem?_append_right (by simp [times_length]; omega)]
    have e1 : 4 * q + k - (times ['.', ' ', ' ', ' '] dest).length = 4 * (q - dest) + k := by simp [times_length]; omega
    rw [e1]
    by_cases h3 : q = dest ∧ k = 0
    · obtain ⟨rfl, rfl⟩ := h3; simp
    · -- position `4 a + b` after the tip
      have hpos : ∃ a b, b < 4 ∧ 4 * (q - dest) + k = (4 * a + b) + 1 ∧ ((k = 0 ∧ b = 3 ∧ q = dest + a + 1) ∨ (k = b + 1 ∧ q = dest + a)) := by
        cases k with
        | zero => exact ⟨q - dest - 1, 3, by omega, by omega, .inl ⟨rfl, rfl, by omega⟩⟩
        | succ k => exact ⟨q - dest, k, by omega, by omega, .inr ⟨rfl, by omega⟩⟩
      obtain ⟨a, b, hb, hab, hcase⟩ := hpos
      rw [hab, List.getElem?_cons_succ]
      by_cases h2 : a < source - dest
      · rw [List.getElem?_append_left (by simp [times_length]; omega), times4 _ _ _ _ _ _ _ hb, if_pos h2]
        have : b = 0 ∨ b = 1 ∨ b = 2 ∨ b = 3 := by omega
        rcases hcase with ⟨rfl, rfl, rfl⟩ | ⟨rfl, rfl⟩
        · simp; omega
        · rcases this with rfl | rfl | rfl | rfl <;> simp <;> omega
      · rw [List.getElem?_append_right (by simp [times_length]; omega)]
        have e2 : 4 * a + b - (times ['-', '-', '-', '.'] (source - dest)).length = 4 * (a - (source - dest)) + b := by
          simp [times_length]; omega
        rw [e2, times4 _ _ _ _ _ _ _ hb, if_pos (by omega)]
        rcases hcase with ⟨rfl, rfl, rfl⟩ | ⟨rfl, rfl⟩
        · simp; omega
        · have : b = 0 ∨ b = 1 ∨ b = 2 ∨ b = 3 := by omega
          rcases this with rfl | rfl | rfl | rfl <;> simp <;> omega

/-- Lines of operations with a name of at most 15 characters show the message, for any number of processes and any two of them. Missing: the operations
with longer names, whose columns are moved to the right. -/
theorem C120_line_partial (name : List Char) (hn : name.length ≤ 15) (size source dest : Nat) (hs : source < size) (hd : dest < size) :
    ShowsMessage (logLine size name source dest) name size source dest := by
  obtain ⟨p, hp, h1, h2, e⟩ := logLine_eq (size := size) (source := source) (dest := dest) hn
  rw [e]
  have hget : ∀ i, (p ++ logColumns size source dest)[16 + i]? = (logColumns size source dest)[i]? := by
    intro i
    rw [List.getElem?_append_right (by omega)]
    congr 1; omega
  have hcol : ∀ q k, k < 4 → 4 * q + k < 4 * (size - 1) + 1 → (logColumns size source dest)[4 * q + k]? =
      some (if k = 0 then (if q = dest then (if dest > source then '>' else '<') else '.')
        else (if (source ≤ q ∧ q < dest) ∨ (dest ≤ q ∧ q < source) then '-' else ' ')) := by
    intro q k hk hq
    by_cases h : source < dest
    · rw [columns_right hd h q k hk hq]
      have h' : ¬ (dest ≤ q ∧ q < source) := by omega
      simp [h, h']
    · rw [columns_left hs (by omega) q k hk hq]
      have h' : ¬ (source ≤ q ∧ q < dest) := by omega
      simp [h, h']
  refine ⟨⟨?_, ?_⟩, ?_, ?_, ?_⟩
  · rw [List.take_append_of_le_length (by omega)]; exact h1
  · rw [List.getElem?_append_left (by omega)]; exact h2
  · intro r hr
    rw [hget, show 4 * r = 4 * r + 0 by omega, hcol r 0 (by omega) (by omega)]
    simp
  · intro r k hr h1 h3
    rw [Nat.add_assoc, hget, hcol r k (by omega) (by omega), if_neg (by omega)]
  · simp only [List.length_append, hp, columns_length hs hd]; omega

/-- The line of `READY_TO_SHUTDOWN`, with 17 characters, is moved. -/
theorem C120_violated : ¬ C120_full := fun h =>
  absurd ((h .readyToShutdown 3 2 1 (by decide) (by decide)).columns 1 (by decide)) (by decide)

/-- Exactly the lines of three operations are moved. -/
theorem C120_operations_exact_partial (o : Operation) :
    (∀ size source dest, source < size → dest < size → ShowsMessage (logLine size o.name source dest) o.name size source dest) ↔
      o ≠ .readyToShutdown ∧ o ≠ .reserveSharedMemory ∧ o ≠ .requestSharedData := by
  constructor
  · intro h
    have hw := (h 1 0 0 (by decide) (by decide)).width
    refine ⟨?_, ?_, ?_⟩ <;> (rintro rfl; revert hw; decide)
  · intro h size source dest hs hd
    refine C120_line_partial o.name ?_ size source dest hs hd
    cases o <;> first | decide | (exfalso; revert h; decide)

/-- The name in a line is the name of the operation received; a number that is no operation raises. -/
theorem C120_names (n : Nat) (name : List Char) : getOpName n = some name ↔ ∃ o : Operation, o.number = n ∧ o.name = name := by
  constructor
  · intro h
    simp only [getOpName, Option.map_eq_some_iff] at h
    obtain ⟨o, h1, h2⟩ := h
    exact ⟨o, by simpa using List.find?_some h1, h2⟩
  · rintro ⟨o, rfl, rfl⟩
    cases o <;> rfl

/-- Different operations have different names. -/
theorem C120_names_unique (o o' : Operation) (h : o.name = o'.name) : o = o' := by
  cases o <;> cases o' <;> first | rfl | exact absurd h (by decide)

/-- The columns determine sender and receiver. -/
theorem columns_injective {size source dest source' dest' : Nat} (hs : source < size) (hd : dest < size) (hs' : source' < size)
    (hd' : dest' < size) (h : logColumns size source dest = logColumns size source' dest') : source = source' ∧ dest = dest' := by
  have hcol : ∀ source dest, source < size → dest < size → ∀ q k, k < 4 → 4 * q + k < 4 * (size - 1) + 1 →
      (logColumns size source dest)[4 * q + k]? =
      some (if k = 0 then (if q = dest then (if dest > source then '>' else '<') else '.')
        else (if (source ≤ q ∧ q < dest) ∨ (dest ≤ q ∧ q < source) then '-' else ' ')) := by
    intro source dest hs hd q k hk hq
    by_cases h : source < dest
    · rw [columns_right hd h q k hk hq]
      have h' : ¬ (dest ≤ q ∧ q < source) := by omega
      simp [h, h']
    · rw [columns_left hs (by omega) q k hk hq]
      have h' : ¬ (source ≤ q ∧ q < dest) := by omega
      simp [h, h']
  have tip : ∀ q, q < size → ((if q = dest then (if dest > source then '>' else '<') else '.') =
      (if q = dest' then (if dest' > source' then '>' else '<') else '.')) := by
    intro q hq
    have e1 := hcol source dest hs hd q 0 (by omega) (by omega)
    have e2 := hcol source' dest' hs' hd' q 0 (by omega) (by omega)
    rw [h, e2] at e1
    simpa using e1.symm
  have mid : ∀ q, q + 1 < size → (((source ≤ q ∧ q < dest) ∨ (dest ≤ q ∧ q < source)) ↔
      ((source' ≤ q ∧ q < dest') ∨ (dest' ≤ q ∧ q < source'))) := by
    intro q hq
    have e1 := hcol source dest hs hd q 1 (by omega) (by omega)
    have e2 := hcol source' dest' hs' hd' q 1 (by omega) (by omega)
    rw [h, e2, if_neg (show ¬ (1 = 0) by decide), if_neg (show ¬ (1 = 0) by decide)] at e1
    clear hcol tip h e2
    by_cases a : (source ≤ q ∧ q < dest) ∨ (dest ≤ q ∧ q < source)
    · by_cases b : (source' ≤ q ∧ q < dest') ∨ (dest' ≤ q ∧ q < source')
      · exact ⟨fun _ => b, fun _ => a⟩
      · rw [if_pos a, if_neg b] at e1; exact absurd e1 (by decide)
    · by_cases b : (source' ≤ q ∧ q < dest') ∨ (dest' ≤ q ∧ q < source')
      · rw [if_neg a, if_pos b] at e1; exact absurd e1 (by decide)
      · exact ⟨fun h => absurd h a, fun h => absurd h b⟩
  have hdd : dest = dest' := by
    have := tip dest hd
    by_cases e : dest = dest'
    · exact e
    · simp [e] at this
      split at this <;> simp at this
  subst hdd
  refine ⟨?_, rfl⟩
  by_cases h1 : source < source'
  · exfalso
    have := mid source (by omega)
    have := mid (source' - 1) (by omega)
    omega
  · by_cases h2 : source' < source
    · exfalso
      have := mid source' (by omega)
      have := mid (source - 1) (by omega)
      omega
    · omega

/-- Every line, moved or not, tells what was sent, by whom and to whom: different messages have different lines. -/
theorem C120_line_determines (o o' : Operation) (size source dest source' dest' : Nat) (hs : source < size) (hd : dest < size)
    (hs' : source' < size) (hd' : dest' < size)
    (h : logLine size o.name source dest = logLine size o'.name source' dest') : o = o' ∧ source = source' ∧ dest = dest' := by
  have key : ∀ (o : Operation) (l : List Char), (o.name ++ ':' :: l).takeWhile (· ≠ ':') = o.name := by
    intro o l; cases o <;> rfl
  have hform : ∀ (o : Operation) (a b : Nat), logLine size o.name a b =
      o.name ++ ':' :: (times [' '] (nameWidth - o.name.length) ++ logColumns size a b) := by
    intro o a b; simp [logLine, logColumns]
  rw [hform, hform] at h
  have hn : o.name = o'.name := by
    have := congrArg (List.takeWhile (· ≠ ':')) h
    rwa [key, key] at this
  have ho := C120_names_unique o o' hn
  subst ho
  have h2 := List.append_cancel_left h
  have h3 := List.append_cancel_left (List.cons.inj h2).2
  exact ⟨rfl, columns_injective hs hd hs' hd' h3⟩

example : logLine 3 Operation.wait.name 0 2 ≠ logLine 3 Operation.get.name 0 2 ∧
    logLine 4 Operation.readyToShutdown.name 3 1 ≠ logLine 4 Operation.readyToShutdown.name 2 1 := by decide

/-- Process 3 receives from process 1, of 5. -/
example : logLine 5 Operation.get.name 1 3 =
    ['G', 'E', 'T', ':', ' ', ' ', ' ', ' ', ' ', ' ', ' ', ' ', ' ', ' ', ' ', ' ',
     '.', ' ', ' ', ' ', '.', '-', '-', '-', '.', '-', '-', '-', '>', ' ', ' ', ' ', '.'] := by decide

end Verif.Props
