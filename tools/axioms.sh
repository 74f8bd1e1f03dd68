#!/bin/sh
# Writes tools/axioms.txt (axioms of every theorem of the manifest); run after `lake build`.
cd "$(dirname "$0")/../lean" || exit 1
names=$(python3 -c "import json; print(' '.join(t for c in json.load(open('../MANIFEST.json'))['claims'] for t in c['theorems']))")
src=$(mktemp --suffix=.lean)
cat > "$src" <<'LEAN'
import Lean
open Lean

def main (args : List String) : IO Unit := do
  initSearchPath (← findSysroot)
  let env ← importModules #[{ module := `Verif }] {} (loadExts := false)
  for a in args do
    let act : CoreM (Array Name) := collectAxioms a.toName
    let (r, _) ← act.toIO { fileName := "", fileMap := default } { env }
    let names := (r.map toString).qsort (· < ·)
    IO.println s!"{(a.splitOn ".").getLast!}\t{", ".intercalate names.toList}"
LEAN
lake env lean --run "$src" $names > ../tools/axioms.txt
rm "$src"
