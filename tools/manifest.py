#!/usr/bin/env python3
"""Regenerates MANIFEST.json: collects the theorems named Cnn_* under lean/Verif/Props and the notes below."""
import json, re, pathlib

ROOT = pathlib.Path(__file__).resolve().parent.parent
NOTES = json.loads((ROOT / "tools" / "notes.json").read_text())

thms = {}
for f in sorted((ROOT / "lean/Verif/Props").glob("*.lean")):
    for m in re.finditer(r"^theorem (C(\d\d+)_\w+)", f.read_text(), re.M):
        thms.setdefault("C" + m.group(2), []).append("Pctsp." + m.group(1))
claims = []
for line in (ROOT / "properties.jsonl").read_text().splitlines():
    p = json.loads(line)["id"]
    names = thms.pop(p, [])
    n = NOTES.get(p, {})
    if not names:
        status = n.get("status", "partial")
        note = n.get("note", "no theorem yet")
    else:
        status = n.get("status", "partial" if any(x.endswith("_partial") for x in names) else "proved")
        note = n.get("note", "")
    claims.append({"property": p, "status": status, "theorems": names, "note": note})
assert not thms, thms
(ROOT / "MANIFEST.json").write_text(json.dumps({"claims": claims}, indent=1) + "\n")
print({s: sum(c["status"] == s for c in claims) for s in ("proved", "partial", "not_applicable")})
