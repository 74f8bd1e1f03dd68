/-!
What the version of the package should be, stated without the model: the state of a checkout, what `git describe` prints for it
(documentation of git, `git describe --tags --dirty --always --long`), and the version text described in `render_pep440`
(unidist/_version.py:421-428).
-/
namespace Verif.Spec

/-- A working tree: the last version tag, the number of commits since then, the abbreviated hash, and whether files are changed; or a working
tree without a version tag, with the number of commits, the abbreviated and the full hash. -/
inductive Checkout
  | tagged (tag : List Char) (since : Nat) (hex : List Char) (full : List Char) (dirty : Bool)
  | untagged (commits : Nat) (hex : List Char) (full : List Char) (dirty : Bool)
deriving Repr, DecidableEq

/-- Hexadecimal digits. -/
def hexDigits : List Char := ['0', '1', '2', '3', '4', '5', '6', '7', '8', '9', 'a', 'b', 'c', 'd', 'e', 'f']

/-- A hash as git prints it. -/
def HashText (h : List Char) : Prop := h ≠ [] ∧ ∀ c ∈ h, c ∈ hexDigits

/-- A version tag: it starts with a digit and has no blanks. -/
def VersionTag (t : List Char) : Prop := (∃ c r, t = c :: r ∧ c.isDigit = true) ∧ ∀ c ∈ t, c ≠ ' ' ∧ c ≠ '\n'

/-- Tags and hashes are possible. -/
def Checkout.Valid : Checkout → Prop
  | .tagged t _ h f _ => VersionTag t ∧ HashText h ∧ HashText f
  | .untagged _ h f _ => HashText h ∧ HashText f

/-- Whether files are changed. -/
def Checkout.changed : Checkout → Bool
  | .tagged _ _ _ _ d => d
  | .untagged _ _ _ d => d

/-- The full hash. -/
def Checkout.hash : Checkout → List Char
  | .tagged _ _ _ f _ => f
  | .untagged _ _ f _ => f

/-- What `git describe` prints: `TAG-NUM-gHEX[-dirty]` or `HEX[-dirty]`. -/
def Checkout.describe : Checkout → List Char
  | .tagged t n h _ d => t ++ ['-'] ++ Nat.toDigits 10 n ++ ['-', 'g'] ++ h ++ (if d then ['-', 'd', 'i', 'r', 't', 'y'] else [])
  | .untagged _ h _ d => h ++ (if d then ['-', 'd', 'i', 'r', 't', 'y'] else [])

/-- What `git describe` prints without `--long`: exactly at a tag only the tag. -/
def Checkout.describeShort : Checkout → List Char
  | .tagged t 0 _ _ d => t ++ (if d then ['-', 'd', 'i', 'r', 't', 'y'] else [])
  | c => c.describe

/-- A part of a date: no blanks and not empty. -/
def DatePart (s : List Char) : Prop := s ≠ [] ∧ ∀ c ∈ s, c ≠ ' ' ∧ c ≠ '\t' ∧ c ≠ '\n' ∧ c ≠ '\r' ∧ c ≠ '\x0b' ∧ c ≠ '\x0c'

/-- Lines printed before the date, for example by the check of a signature. -/
def LinesBefore (b : List Char) : Prop := b = [] ∨ ∃ a, b = a ++ ['\n']

/-- The version: `TAG[+DISTANCE.gHEX[.dirty]]` with `.` instead of `+` if the tag has a `+`, and `0+untagged.DISTANCE.gHEX[.dirty]`. -/
def Checkout.version : Checkout → List Char
  | .tagged t 0 _ _ false => t
  | .tagged t n h _ d => t ++ (if '+' ∈ t then ['.'] else ['+']) ++ Nat.toDigits 10 n ++ ['.', 'g'] ++ h
      ++ (if d then ['.', 'd', 'i', 'r', 't', 'y'] else [])
  | .untagged n _ f d => ['0', '+', 'u', 'n', 't', 'a', 'g', 'g', 'e', 'd', '.'] ++ Nat.toDigits 10 n ++ ['.', 'g'] ++ f.take 7
      ++ (if d then ['.', 'd', 'i', 'r', 't', 'y'] else [])

/-- The two working trees are at the same commit, as far as abbreviated hashes tell, and both have changed files or none has. Exactly at a tag
the tag stands for the hash. -/
def Checkout.Same : Checkout → Checkout → Prop
  | .tagged t n h _ d, .tagged t' n' h' _ d' => t = t' ∧ n = n' ∧ d = d' ∧ (h = h' ∨ (n = 0 ∧ d = false))
  | .untagged n _ f d, .untagged n' _ f' d' => n = n' ∧ f.take 7 = f'.take 7 ∧ d = d'
  | _, _ => False

/-- No `+` in the tag. -/
def Checkout.NoPlus : Checkout → Prop
  | .tagged t _ _ _ _ => '+' ∉ t
  | .untagged .. => True

/-- The version text of a working tree without a tag begins like this. -/
def untaggedTag : List Char := ['0', '+', 'u', 'n', 't', 'a', 'g', 'g', 'e', 'd']

/-- A decoration of a commit as `git log --decorate` shows it: a tag, the current branch, another branch, or `HEAD` alone. -/
inductive GitRef
  | tag (name : List Char)
  | current (name : List Char)
  | branch (name : List Char)
  | head
deriving Repr, DecidableEq

/-- How it is shown. -/
def GitRef.text : GitRef → List Char
  | .tag n => ['t', 'a', 'g', ':', ' '] ++ n
  | .current n => ['H', 'E', 'A', 'D', ' ', '-', '>', ' '] ++ n
  | .branch n => n
  | .head => ['H', 'E', 'A', 'D']

/-- The name in it. -/
def GitRef.name : GitRef → List Char
  | .tag n => n
  | .current n => n
  | .branch n => n
  | .head => ['H', 'E', 'A', 'D']

/-- All decorations, separated by commas. -/
def joinRefs : List GitRef → List Char
  | [] => []
  | [r] => r.text
  | r :: rs => r.text ++ [',', ' '] ++ joinRefs rs

/-- `%d`: nothing, or ` (` … `)`. -/
def decorations : List GitRef → List Char
  | [] => []
  | rs => [' ', '('] ++ joinRefs rs ++ [')']

/-- A name that git allows: not empty, no blanks. -/
def RefName (n : List Char) : Prop := n ≠ [] ∧ ∀ c ∈ n, c ≠ ' ' ∧ c ≠ '\n' ∧ c ≠ '\t' ∧ c ≠ '\r' ∧ c ≠ '\x0b' ∧ c ≠ '\x0c' ∧ c ≠ ':'

/-- A name without the characters `git` itself uses in the decorations. -/
def PlainName (n : List Char) : Prop := ∀ c ∈ n, c ≠ ',' ∧ c ≠ '(' ∧ c ≠ ')'

/-- The version tags of a commit: those that start with a digit. -/
def IsVersionTag (rs : List GitRef) (t : List Char) : Prop := GitRef.tag t ∈ rs ∧ ∃ c r, t = c :: r ∧ c.isDigit = true

/-- What is taken for a version tag: a tag that starts with a digit, and if there is no tag a branch other than the current one that does. -/
def TakenForVersion (rs : List GitRef) (t : List Char) : Prop :=
  (GitRef.tag t ∈ rs ∨ ((∀ n, GitRef.tag n ∉ rs) ∧ GitRef.branch t ∈ rs)) ∧ ∃ c r, t = c :: r ∧ c.isDigit = true

end Verif.Spec
