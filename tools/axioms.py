#!/usr/bin/env python3
"""Regenerates AXIOMS.md: the axioms that every theorem of MANIFEST.json depends on (run after `lake build`)."""
import json, re, subprocess, pathlib, tempfile

ROOT = pathlib.Path(__file__).resolve().parent.parent
claims = json.loads((ROOT / "MANIFEST.json").read_text())["claims"]
thms = [t for c in claims for t in c["theorems"]]
with tempfile.NamedTemporaryFile("w", suffix=".lean", delete=False) as f:
    f.write("import Verif\n" + "".join(f"#print axioms {t}\n" for t in thms))
out = subprocess.run(["lake", "env", "lean", f.name], cwd=ROOT / "lean", capture_output=True, text=True).stdout
flat = re.sub(r"\s+", " ", out)
rows = []
for c in claims:
    for t in c["theorems"]:
        m = re.search("'" + re.escape(t) + r"' (does not depend on any axioms|depends on axioms: \[([^\]]*)\])", flat)
        assert m, t
        ax = m.group(2) or "none"
        assert set(re.split(r", ", ax)) <= {"none", "propext", "Classical.choice", "Quot.sound"}, (t, ax)
        rows.append(f"| {c['property']} | `{t}` | {ax} |")
(ROOT / "AXIOMS.md").write_text("# Axioms of the property theorems\n\nGenerated by `tools/axioms.py` from `#print axioms`.\n\n"
    "| Property | Theorem | Axioms |\n|---|---|---|\n" + "\n".join(rows) + "\n")
print(len(rows), "theorems")
