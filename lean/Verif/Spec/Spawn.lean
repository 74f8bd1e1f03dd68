import Verif.Model.Spawn

/-! Notions used to state the properties of spawned processes. -/
namespace Verif.Spec

/-- A text without quotes, backslashes and ends of lines. -/
def Plain (s : List Char) : Prop := '\'' ∉ s ∧ '\\' ∉ s ∧ '\n' ∉ s ∧ '\r' ∉ s

instance (s : List Char) : Decidable (Plain s) := inferInstanceAs (Decidable (_ ∧ _ ∧ _ ∧ _))

/-- The text that the characters between single quotes stand for in a Python program: backslash sequences of one character are
replaced, a backslash before a character without a meaning stays. A quote, the end of a line and sequences with codes or names are left
out. -/
inductive Denotes : List Char → List Char → Prop
  | nil : Denotes [] []
  | char {c : Char} {s u : List Char} : c ∉ ['\'', '\\', '\n', '\r'] → Denotes s u → Denotes (c :: s) (c :: u)
  | escape {c d : Char} {s u : List Char} :
    (c, d) ∈ [('\\', '\\'), ('\'', '\''), ('"', '"'), ('n', '\n'), ('r', '\r'), ('t', '\t')] →
    Denotes s u → Denotes ('\\' :: c :: s) (d :: u)
  | backslash {c : Char} {s u : List Char} :
    c ∉ ['\\', '\'', '"', 'n', 'r', 't', 'a', 'b', 'f', 'v', 'x', 'u', 'U', 'N', '0', '1', '2', '3', '4', '5', '6', '7', '\n', '\r'] →
    Denotes s u → Denotes ('\\' :: c :: s) ('\\' :: c :: u)

end Verif.Spec
