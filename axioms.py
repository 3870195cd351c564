#!/usr/bin/env python3
"""Rewrite section 6 of DESIGN.md: axioms of every theorem in MANIFEST.json."""
import collections, json, re, subprocess
names = []
for c in json.load(open("/verif/MANIFEST.json"))["claims"]:
    for t in c["theorems"]:
        if t not in names:
            names.append(t)
open("/tmp/ax.lean", "w").write("import Verif\n" + "\n".join("#print axioms " + n for n in names) + "\n")
out = subprocess.run(["lake", "env", "lean", "/tmp/ax.lean"], capture_output=True, text=True, cwd="/verif/lean").stdout
groups = collections.defaultdict(list)
for m in re.finditer(r"'([^\n]+?)' (?:depends on axioms:\s*\[([^\]]*)\]|does not depend on any axioms)", out):
    groups[re.sub(r"\s+", " ", m.group(2) or "none")].append(m.group(1))
assert sum(map(len, groups.values())) == len(names), (sum(map(len, groups.values())), len(names), out[:500])
text = "## 6. Axioms\n\nOutput of `#print axioms` for every theorem in MANIFEST.json (prefix `Umpire.` left out).\n\n"
for k in sorted(groups, key=len):
    text += "* **%s**: %s\n" % (k, ", ".join(sorted(n.removeprefix("Umpire.") for n in groups[k])))
s = open("/verif/DESIGN.md").read()
i = s.find("## 6. Axioms")
if i >= 0:
    s = s[:i]
open("/verif/DESIGN.md", "w").write(s + text)
