"""List definitions of the models whose comment does not cite a file and lines."""
import glob, re, sys

missing = []
for path in sorted(glob.glob("/verif/lean/Verif/Model/*.lean")):
    text = open(path).read()
    for m in re.finditer(r"(?m)^(?:@\[[^\]]*\] *)?(?:private |protected |noncomputable )?(def|structure|inductive|abbrev|instance|class)\b *([^\s:({\[]*)", text):
        before = text[: m.start()].rstrip()
        doc = ""
        if before.endswith("-/"):
            start = max(before.rfind("/--"), before.rfind("/-!"))
            if before[start:start + 3] == "/--":
                doc = before[start:]
        if not re.search(r"[\w/]+\.(py|cpp|pyx):\d+", doc):
            missing.append((path.split("/")[-1], m.group(1), m.group(2), " ".join(doc.split())[:110]))
for x in missing:
    print(*x, sep=" | ")
print(len(missing), file=sys.stderr)

import os
known = {}
for root, _, files in os.walk("/repo"):
    for f in files:
        if f.endswith((".py", ".cpp", ".pyx", ".h")):
            p = os.path.join(root, f)
            known[p] = sum(1 for _ in open(p, errors="replace"))
bad = set()
for path in sorted(glob.glob("/verif/lean/Verif/Model/*.lean")):
    text = open(path).read()
    for m in re.finditer(r"([\w/]+\.(?:py|cpp|pyx)):(\d+)(?:-(\d+))?", text):
        name, a, b = m.group(1), int(m.group(2)), int(m.group(3) or m.group(2))
        c = [p for p in known if p.endswith("/" + name.lstrip("/"))]
        if not any(a <= b <= known[p] for p in c):
            bad.add((path.split("/")[-1], m.group(0), len(c)))
for x in sorted(bad):
    print("bad citation:", *x)
