import Verif.Model.Versions

/-!
`unidist.__version__`: `get_versions` of `unidist/_version.py` with the configuration of lines 46-57 (style `pep440`, no tag prefix,
`unidist-` as prefix of the directory of a source distribution).

Texts are lists of characters. `git` is modelled by the texts its commands print; `None` is a command that fails. The name of the branch
(lines 326-356) is left out, since the style `pep440` does not print it; a failing `rev-parse --abbrev-ref` is a failing command.
-/
namespace Verif.Pkg
open Verif.Versions (splitOn)

/-- Python's `str` (_version.py:22-32). -/
abbrev Text := List Char

/-- The blanks removed by `strip`, of ASCII (_version.py:217, 222, 315, 319). -/
def isBlank (c : Char) : Bool := c == ' ' || c == '\t' || c == '\n' || c == '\r' || c == '\x0b' || c == '\x0c'

/-- `text.strip(chars)` (_version.py:217, 222). -/
def stripOf (p : Char → Bool) (s : Text) : Text := ((s.dropWhile p).reverse.dropWhile p).reverse

/-- `text.strip()` (_version.py:216-217, 315, 319). -/
def strip (s : Text) : Text := stripOf isBlank s

/-- `\d`, of ASCII (_version.py:235, 247, 372). -/
def isNum (c : Char) : Bool := c.isDigit

/-- `[0-9a-f]` (_version.py:372). -/
def isHex (c : Char) : Bool := c.isDigit || (97 ≤ c.toNat && c.toNat ≤ 102)

/-- `text.replace(c, new, 1)` (_version.py:216, 408). -/
def replaceOnce (c : Char) (new : Text) : Text → Text
  | [] => []
  | x :: t => if x = c then new ++ t else x :: replaceOnce c new t

/-- `"2023-01-02 03:04:05 +0100"` to ISO 8601: the last line, without blanks around it (_version.py:204-216, 404-408). -/
def isoDate (d : Text) : Text :=
  replaceOnce ' ' [] (replaceOnce ' ' ['T'] (strip ((splitOn '\n' (strip d)).getLastD [])))

/-! ### A checkout: `git_pieces_from_vcs` and `render` -/

/-- What the commands of `git` print (_version.py:291-330, 397-404). `inside`: `rev-parse --git-dir` succeeds. -/
structure Git where
  inside : Bool
  describe : Option Text
  head : Option Text
  branch : Option Text
  commits : Nat
  date : Text
deriving Repr, DecidableEq

/-- Why no version was found (_version.py:265, 375, 384-387, 694, 714). -/
inductive Err
  | unparsable
  | otherPrefix
  | noTags
  | noRoot
  | noMethod
deriving Repr, DecidableEq

/-- `pieces` (_version.py:321-410). -/
structure Pieces where
  long : Text
  short : Text
  error : Option Err
  dirty : Bool
  tag : Option Text
  distance : Nat
  date : Text
deriving Repr, DecidableEq

/-- `-dirty` (_version.py:363-366). -/
def dirtyMark : Text := ['-', 'd', 'i', 'r', 't', 'y']

/-- The part `-(\d+)-g([0-9a-f]+)$` of the pattern, matched at the beginning of a text (_version.py:372). -/
def matchTail : Text → Option (Text × Text)
  | '-' :: r =>
    match r.dropWhile isNum with
    | '-' :: 'g' :: h => if r.takeWhile isNum ≠ [] ∧ h ≠ [] ∧ h.all isHex = true then some (r.takeWhile isNum, h) else none
    | _ => none
  | _ => none

/-- `(.+)` takes as much as possible: the lengths `i`, `i-1`, … are tried (_version.py:372). -/
def matchUpTo (s : Text) : Nat → Option (Text × Text × Text)
  | 0 => none
  | i + 1 =>
    match (if '\n' ∈ s.take (i + 1) then none else matchTail (s.drop (i + 1))) with
    | some (ds, h) => some (s.take (i + 1), ds, h)
    | none => matchUpTo s i

/-- `re.search(r"^(.+)-(\d+)-g([0-9a-f]+)$", git_describe)` (_version.py:372). -/
def matchDescribe (s : Text) : Option (Text × Text × Text) := matchUpTo s s.length

/-- `git_pieces_from_vcs` with the prefix of tags `pre`; `none` is `NotThisMethod` (_version.py:271-410). -/
def gitPieces (pre : Text) (g : Git) : Option Pieces :=
  if g.inside = false then none
  else match g.describe, g.head, g.branch with
    | some d, some f, some _ =>
      let out := strip d
      let full := strip f
      let dirty := dirtyMark.isSuffixOf out
      let gd := if dirty then out.take (out.length - dirtyMark.length) else out
      let p : Pieces := ⟨full, full.take 7, none, dirty, none, 0, []⟩
      if '-' ∈ gd then
        match matchDescribe gd with
        | none => some { p with error := some .unparsable }
        | some (t, n, h) =>
          if pre.isPrefixOf t then
            some { p with tag := some (t.drop pre.length), distance := Nat.ofDigitChars 10 n 0, short := h, date := isoDate g.date }
          else some { p with error := some .otherPrefix }
      else some { p with distance := g.commits, date := isoDate g.date }
    | _, _, _ => none

/-- `plus_or_dot` (_version.py:413-417). -/
def plusOrDot (tag : Text) : Char := if '+' ∈ tag then '.' else '+'

/-- `"%d"` (_version.py:433, 438). -/
def shown (n : Nat) : Text := Nat.toDigits 10 n

/-- `.dirty` or nothing (_version.py:434-435, 439-440). -/
def dirtyPart (dirty : Bool) : Text := if dirty then ['.', 'd', 'i', 'r', 't', 'y'] else []

/-- `0+untagged.` (_version.py:438). -/
def untagged : Text := ['0', '+', 'u', 'n', 't', 'a', 'g', 'g', 'e', 'd', '.']

/-- The tag, unless there is none or it is the empty text (_version.py:429). -/
def Pieces.trueTag (p : Pieces) : Option Text := if p.tag = some [] then none else p.tag

/-- `render_pep440` (_version.py:420-441). -/
def renderPep440 (p : Pieces) : Text :=
  match p.trueTag with
  | some t =>
    if p.distance ≠ 0 ∨ p.dirty = true then
      t ++ plusOrDot t :: (shown p.distance ++ ['.', 'g'] ++ p.short) ++ dirtyPart p.dirty
    else t
  | none => untagged ++ shown p.distance ++ ['.', 'g'] ++ p.short ++ dirtyPart p.dirty

/-- `-dirty` or nothing (_version.py:600-601, 620-621). -/
def dirtyTail (dirty : Bool) : Text := if dirty then dirtyMark else []

/-- `render_git_describe` (_version.py:585-602). -/
def renderDescribe (p : Pieces) : Text :=
  (match p.trueTag with
   | some t => if p.distance ≠ 0 then t ++ '-' :: (shown p.distance ++ ['-', 'g'] ++ p.short) else t
   | none => p.short) ++ dirtyTail p.dirty

/-- `render_git_describe_long` (_version.py:605-622). -/
def renderDescribeLong (p : Pieces) : Text :=
  (match p.trueTag with
   | some t => t ++ '-' :: (shown p.distance ++ ['-', 'g'] ++ p.short)
   | none => p.short) ++ dirtyTail p.dirty

/-- What `get_versions` returns (_version.py:251-257, 658-664). -/
structure Info where
  version : Text
  revision : Option Text
  dirty : Option Bool
  error : Option Err
  date : Option Text
deriving Repr, DecidableEq

/-- `unknown` (_version.py:629). -/
def unknownText : Text := ['u', 'n', 'k', 'n', 'o', 'w', 'n']

/-- `render` with the style `pep440` (_version.py:625-664). -/
def render (p : Pieces) : Info :=
  match p.error with
  | some e => ⟨unknownText, some p.long, none, some e, none⟩
  | none => ⟨renderPep440 p, some p.long, some p.dirty, none, some p.date⟩

/-! ### An archive: `git_versions_from_keywords` -/

/-- The keywords in `_version.py`, replaced by `git archive` (_version.py:22-32). -/
structure Keywords where
  refnames : Text
  full : Text
  date : Text
deriving Repr, DecidableEq

/-- `$Format` (_version.py:218). -/
def formatMark : Text := ['$', 'F', 'o', 'r', 'm', 'a', 't']

/-- `tag: ` (_version.py:225). -/
def tagMark : Text := ['t', 'a', 'g', ':', ' ']

/-- Order of texts by their code points, for `sorted` (_version.py:240). -/
def leText : Text → Text → Bool
  | [], _ => true
  | _ :: _, [] => false
  | a :: s, b :: t => if a.toNat < b.toNat then true else if b.toNat < a.toNat then false else leText s t

/-- A text among sorted texts (_version.py:240). -/
def insertText (a : Text) : List Text → List Text
  | [] => [a]
  | b :: l => if leText a b then a :: b :: l else b :: insertText a l

/-- `sorted` (_version.py:240). -/
def sortTexts : List Text → List Text
  | [] => []
  | a :: l => insertText a (sortTexts l)

/-- `refs` (_version.py:222). A set in the program; only its elements are used. -/
def refsOf (refnames : Text) : List Text :=
  (splitOn ',' (stripOf (fun c => c == '(' || c == ')') refnames)).map strip

/-- `tags` (_version.py:226-235). -/
def tagsOf (refs : List Text) : List Text :=
  let tags := (refs.filter (fun r => tagMark.isPrefixOf r)).map (fun r => r.drop tagMark.length)
  if tags = [] then refs.filter (fun r => r.any isNum) else tags

/-- `re.match(r"\d", r)` (_version.py:247). -/
def startsNum : Text → Bool
  | c :: _ => isNum c
  | [] => false

/-- `0+unknown` (_version.py:262). -/
def unknownVersion : Text := '0' :: '+' :: unknownText

/-- `git_versions_from_keywords`; `none` is `NotThisMethod` (_version.py:196-267). -/
def fromKeywords (pre : Text) (k : Keywords) : Option Info :=
  let refnames := strip k.refnames
  if formatMark.isPrefixOf refnames then none
  else
    match (sortTexts (tagsOf (refsOf refnames))).find? (fun r => pre.isPrefixOf r && startsNum (r.drop pre.length)) with
    | some r => some ⟨r.drop pre.length, some (strip k.full), some false, none, some (isoDate k.date)⟩
    | none => some ⟨unknownVersion, some (strip k.full), some false, some .noTags, none⟩

/-! ### A source distribution: `versions_from_parentdir` -/

/-- `versions_from_parentdir` (_version.py:133-164). `root`: the names of the directories from the inside to the outside; `os.path.dirname`
of the outermost one is itself and has no name. -/
def fromParentDir (pre : Text) : Nat → List Text → Option Info
  | 0, _ => none
  | k + 1, root =>
    let name := root.headD []
    if pre.isPrefixOf name then some ⟨name.drop pre.length, none, some false, none, none⟩
    else fromParentDir pre k root.tail

/-- `unidist-` (_version.py:54). -/
def parentPrefix : Text := ['u', 'n', 'i', 'd', 'i', 's', 't', '-']

/-- `get_versions` (_version.py:667-716). `file`: the parts of the path of `_version.py`, from the inside to the outside, if `__file__` exists. -/
def getVersions (k : Keywords) (file : Option (List Text)) (g : Git) : Info :=
  match fromKeywords [] k with
  | some i => i
  | none =>
    match file with
    | none => ⟨unknownVersion, none, none, some .noRoot, none⟩
    | some f =>
      match gitPieces [] g with
      | some p => render p
      | none =>
        match fromParentDir parentPrefix 3 (f.drop 2) with
        | some i => i
        | none => ⟨unknownVersion, none, none, some .noMethod, none⟩

/-- The keywords as they are in a checkout (_version.py:28-30). -/
def unexpanded : Keywords where
  refnames := ['$', 'F', 'o', 'r', 'm', 'a', 't', ':', '%', 'd', '$']
  full := ['$', 'F', 'o', 'r', 'm', 'a', 't', ':', '%', 'H', '$']
  date := ['$', 'F', 'o', 'r', 'm', 'a', 't', ':', '%', 'c', 'i', '$']

end Verif.Pkg
