#!/usr/bin/env python3
"""Regenerate MANIFEST.json from the theorem names in lean/Verif/Props and the notes in tools/notes.json."""
import collections
import glob
import json
import os
import re

root = os.path.dirname(os.path.dirname(os.path.abspath(__file__)))
notes = json.load(open(os.path.join(root, "tools", "notes.json")))
ids = [json.loads(line)["id"] for line in open(os.path.join(root, "properties.jsonl"))]
found = collections.defaultdict(list)
for path in sorted(glob.glob(os.path.join(root, "lean/Verif/Props/*.lean"))):
    text = open(path).read()
    assert "namespace Verif.Props" in text, path
    for name in re.findall(r"^theorem (C\d+_\w+)", text, re.M):
        found[name.split("_")[0]].append("Verif.Props." + name)
claims = []
for pid in ids:
    thms = found.pop(pid, [])
    if not thms:
        continue
    partial = any(t.endswith("_partial") or t.endswith("_violated") for t in thms)
    claims.append(
        {
            "property": pid,
            "status": "partial" if partial else "proved",
            "theorems": thms,
            "note": notes.get(pid, ""),
        }
    )
assert not found, found
with open(os.path.join(root, "MANIFEST.json"), "w") as f:
    json.dump({"claims": claims}, f, indent=1)
    f.write("\n")
miss = [c["property"] for c in claims if not c["note"]]
print(len(claims), "claims; without note:", miss, "; without theorem:", [i for i in ids if i not in {c["property"] for c in claims}])
