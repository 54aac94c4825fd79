#!/usr/bin/env python3
"""Write AXIOMS.md: for every theorem of MANIFEST.json the axioms it depends on, as printed by
`#print axioms`. Needs a finished `lake build`."""
import json, os, re, subprocess, tempfile
here = os.path.dirname(os.path.dirname(os.path.abspath(__file__)))
names = []
for cl in json.load(open(os.path.join(here, "MANIFEST.json")))["claims"]:
    for t in cl["theorems"]:
        if t not in names:
            names.append(t)
src = "import Verif\n" + "".join(f"#print axioms {n}\n" for n in names)
with tempfile.NamedTemporaryFile("w", suffix=".lean", delete=False) as f:
    f.write(src)
out = subprocess.run(["lake", "env", "lean", f.name], cwd=os.path.join(here, "lean"), capture_output=True, text=True).stdout
out = re.sub(r"\n\s+", " ", out)
groups = {}
for line in out.splitlines():
    m = re.match(r"'(.*)' depends on axioms: \[(.*)\]", line)
    if m:
        groups.setdefault(m.group(2), []).append(m.group(1)); continue
    m = re.match(r"'(.*)' does not depend on any axioms", line)
    if m:
        groups.setdefault("none", []).append(m.group(1)); continue
    print("unexpected:", line)
with open(os.path.join(here, "AXIOMS.md"), "w") as f:
    f.write("# Axioms of the theorems in MANIFEST.json\n\nGenerated by tools/axioms.py.\n")
    for g in sorted(groups):
        f.write(f"\n## {g}\n\n")
        for n in sorted(groups[g]):
            f.write(f"- {n}\n")
print({g: len(v) for g, v in groups.items()}, "of", len(names))
