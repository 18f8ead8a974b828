#!/usr/bin/env python3
"""Regenerates lean/Verif.lean: imports every module under lean/Verif."""
import pathlib

LEAN = pathlib.Path(__file__).resolve().parent.parent / "lean"
mods = sorted(".".join(f.relative_to(LEAN).with_suffix("").parts) for f in (LEAN / "Verif").rglob("*.lean"))
(LEAN / "Verif.lean").write_text("".join(f"import {m}\n" for m in mods))
