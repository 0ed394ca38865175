#!/usr/bin/env python3
"""Rewrites the section "Axioms per theorem" of DESIGN.md. Run in /verif after `lake build`."""
import collections
import json
import re
import subprocess

claims = json.load(open("/verif/MANIFEST.json"))["claims"]
names = [t for c in claims for t in c["theorems"]]
with open("/tmp/axioms.lean", "w") as f:
    f.write("import Verif\n" + "".join(f"#print axioms {n}\n" for n in names))
out = subprocess.run(["lake", "env", "lean", "/tmp/axioms.lean"], cwd="/verif/lean", capture_output=True, text=True).stdout
groups = collections.defaultdict(list)
for m in re.finditer(r"'([\w.']+)' (?:does not depend on any axioms|depends on axioms: \[([^\]]*)\])", out):
    axioms = tuple(sorted(x.strip() for x in (m[2] or "").split(",") if x.strip()))
    groups[axioms].append(m[1].removeprefix("GEM.Props."))
assert sum(map(len, groups.values())) == len(names)
full = ("Classical.choice", "Quot.sound", "propext")
assert all(set(g) <= set(full) for g in groups)
text = f"{len(names)} theorems are listed in MANIFEST.json (all in the namespace `GEM.Props`).\n"
for g in sorted(groups, key=len):
    if g != full:
        what = ", ".join(f"`{a}`" for a in g) or "no axioms"
        text += f"\n* {what}: " + ", ".join(f"`{n}`" for n in sorted(groups[g])) + "\n"
text += f"\n* `propext`, `Classical.choice`, `Quot.sound`: the other {len(groups[full])} theorems.\n"
design = open("/verif/DESIGN.md").read()
head, rest = design.split("## Axioms per theorem\n")
tail = rest[rest.index("\n## ") :] if "\n## " in rest else ""
open("/verif/DESIGN.md", "w").write(head + "## Axioms per theorem\n\n" + text + tail)
