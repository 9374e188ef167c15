#!/usr/bin/env python3
"""Write AXIOMS.md: the axioms that each theorem of MANIFEST.json depends on, as reported by Lean. Run after `lake build`."""
import json, pathlib, re, subprocess, tempfile
root = pathlib.Path(__file__).resolve().parent.parent
thms = [t for c in json.loads((root / "MANIFEST.json").read_text())["claims"] for t in c["theorems"]]
with tempfile.NamedTemporaryFile("w", suffix=".lean", delete=False) as f:
    f.write("import Verif\n" + "\n".join(f"#print axioms {t}" for t in thms) + "\n")
out = subprocess.run(["lake", "env", "lean", f.name], cwd=root / "lean", capture_output=True, text=True).stdout
ax = {}
for m in re.finditer(r"'([^']+)' (?:depends on axioms: \[([^\]]*)\]|does not depend on any axioms)", out):
    ax[m.group(1)] = ", ".join(sorted(x.strip() for x in (m.group(2) or "").split(",") if x.strip())) or "none"
groups = {}
for t in thms:
    groups.setdefault(ax.get(t, "?"), []).append(t)
with open(root / "AXIOMS.md", "w") as f:
    f.write("# Axioms of each theorem\n\nWritten by tools/gen_axioms.py from `#print axioms`. The three axioms are Lean's own.\n")
    for g in sorted(groups, key=lambda g: (g != "none", g)):
        f.write(f"\n## {g}\n\n" + "\n".join(f"* `{t}`" for t in groups[g]) + "\n")
print({g: len(v) for g, v in groups.items()})
