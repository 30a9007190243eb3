#!/usr/bin/env python3
"""Writes AXIOMS.md: the axioms each property theorem depends on, as printed by lean/Verif/Audit.lean."""
import os, re, subprocess
root = os.path.join(os.path.dirname(os.path.abspath(__file__)), "..")
out = subprocess.run(["lake", "env", "lean", "Verif/Audit.lean"], cwd=os.path.join(root, "lean"), capture_output=True, text=True).stdout
out = " ".join(out.split())
rows = re.findall(r"'Dawg\.Props\.(\w+)' (?:depends on axioms: \[([^\]]*)\]|(does not depend on any axioms))", out)
allowed = {"propext", "Classical.choice", "Quot.sound"}
with open(os.path.join(root, "AXIOMS.md"), "w") as f:
    f.write("# Axioms of the property theorems\n\nOutput of `#print axioms` (lean/Verif/Audit.lean), written by tools/axioms.py.\n\n| Theorem | Axioms |\n|---|---|\n")
    for n, a, _ in rows:
        assert set(x.strip() for x in a.split(",") if x.strip()) <= allowed, (n, a)
        f.write(f"| `{n}` | {a or 'none'} |\n")
print(len(rows), "theorems")
