#!/usr/bin/env python3
"""Adds properties, notes, plan entries, defects and imports given in a JSON file."""
import json, sys
d = json.load(open(sys.argv[1]))
R = "/verif/"
with open(R + "properties.jsonl", "a") as f:
    for p in d.get("properties", []):
        f.write(json.dumps(p) + "\n")
for name in ("notes", "plan"):
    p = R + "tools/%s.json" % name
    n = json.load(open(p))
    n.update(d.get(name, {}))
    json.dump(n, open(p, "w"), indent=1)
p = R + "tools/design_defects.md"
t = open(p).read()
mark = "\nSeen while reading"
i = t.index(mark) if mark in t else len(t)
t = t[:i] + "".join("* " + x + "\n" for x in d.get("defects", [])) + t[i:]
open(p, "w").write(t)
p = R + "lean/Verif.lean"
t = open(p).read()
for m in d.get("imports", []):
    if "import Verif.Props." + m + "\n" not in t:
        t += "import Verif.Props.%s\n" % m
open(p, "w").write(t)
