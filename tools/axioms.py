#!/usr/bin/env python3
"""Write AXIOMS.md: the axioms each theorem of the manifest depends on (needs a built project)."""
import json, subprocess, os, re
root = os.path.dirname(os.path.dirname(os.path.abspath(__file__)))
claims = json.load(open(os.path.join(root, "MANIFEST.json")))["claims"]
names = []
for c in claims:
    for t in c["theorems"]:
        if t not in names:
            names.append(t)
src = "import Verif\n" + "".join(f"#print axioms {n}\n" for n in names)
tmp = "/tmp/axioms_check.lean"
open(tmp, "w").write(src)
out = subprocess.run(["lake", "env", "lean", tmp], cwd=os.path.join(root, "lean"), capture_output=True, text=True).stdout
out = re.sub(r"\n\s+", " ", out)
ax = {}
for line in out.splitlines():
    m = re.match(r"'(.+)' depends on axioms: \[(.*)\]", line)
    if m:
        ax[m.group(1)] = m.group(2)
        continue
    m = re.match(r"'(.+)' does not depend on any axioms", line)
    if m:
        ax[m.group(1)] = "none"
missing = [n for n in names if n not in ax]
if missing:
    raise SystemExit(f"not found: {missing}\n{out[:2000]}")
with open(os.path.join(root, "AXIOMS.md"), "w") as f:
    f.write("# Axioms used by the theorems of the manifest\n\nGenerated by `tools/axioms.py` with `#print axioms`.\n\n")
    groups = {}
    for n in names:
        groups.setdefault(", ".join(sorted(ax[n].split(", "))), []).append(n)
    for k in sorted(groups):
        f.write(f"## {k}\n\n" + "".join(f"* `{n}`\n" for n in groups[k]) + "\n")
allowed = {"propext", "Classical.choice", "Quot.sound", "none"}
bad = {n: a for n, a in ax.items() if not set(a.split(", ")) <= allowed}
print(len(names), "theorems;", "unexpected axioms: " + str(bad) if bad else "only the standard axioms")
