import Verif.Model.DataIds

/-! Meaning of version numbers, of the text that MPI libraries report and of Python command lines. -/
namespace Verif.Spec

open Verif.Ids (Str decimal)

/-- Version numbers compared component by component as numbers, missing components being zero. -/
def Older (a b : List Nat) : Prop := ∃ i, a.getD i 0 < b.getD i 0 ∧ ∀ j, j < i → a.getD j 0 = b.getD j 0

/-- A version as text. -/
def versionText : List Nat → Str
  | [] => []
  | [n] => decimal n
  | n :: m :: ns => decimal n ++ '.' :: versionText (m :: ns)

/-- Lines as one text. -/
def lines : List Str → Str
  | [] => []
  | [l] => l
  | l :: m :: ls => l ++ '\n' :: lines (m :: ls)

/-- What the Python interpreter understands from its command line arguments: how often each single letter flag is given, the
warning options and the extended options. -/
structure Understood where
  count : Char → Nat
  warnings : List Str
  xoptions : List (Str × Option Str)

/-- `name` or `name=value`. -/
def xoption : Str → Str × Option Str
  | [] => ([], none)
  | c :: t => if c = '=' then ([], some t) else ((c :: (xoption t).1), (xoption t).2)

/-- The command line option `-W text`, `-X text` or a group of single letter flags. -/
def understand : List Str → Understood
  | [] => ⟨fun _ => 0, [], []⟩
  | arg :: args =>
    let u := understand args
    match arg with
    | '-' :: 'W' :: t => { u with warnings := t :: u.warnings }
    | '-' :: 'X' :: t => { u with xoptions := xoption t :: u.xoptions }
    | '-' :: t => { u with count := fun c => t.count c + u.count c }
    | _ => u

/-- The attribute of `sys.flags` that a single letter option sets, from the documentation of the interpreter; `-i`, the interactive
mode, is left out. -/
def flagOfLetter : Char → Option String
  | 'b' => some "bytes_warning"
  | 'B' => some "dont_write_bytecode"
  | 'd' => some "debug"
  | 'E' => some "ignore_environment"
  | 'I' => some "isolated"
  | 'O' => some "optimize"
  | 'P' => some "safe_path"
  | 'q' => some "quiet"
  | 'R' => some "hash_randomization"
  | 's' => some "no_user_site"
  | 'S' => some "no_site"
  | 'v' => some "verbose"
  | _ => none

end Verif.Spec
