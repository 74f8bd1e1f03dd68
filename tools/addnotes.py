#!/usr/bin/env python3
"""Merge notes given as `Cnn: text` lines on standard input into notes.json."""
import json, re, sys
p = "/verif/tools/notes.json"
n = json.load(open(p))
for l in sys.stdin:
    m = re.match(r"(C\d+): (.*)", l.strip())
    if m:
        n[m.group(1)] = m.group(2)
json.dump(n, open(p, "w"), indent=1)
