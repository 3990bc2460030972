#!/usr/bin/env python3
"""Regenerate lean/Verif.lean from the files under lean/Verif."""
import pathlib
root = pathlib.Path(__file__).resolve().parent.parent / "lean"
mods = sorted(".".join(p.relative_to(root).with_suffix("").parts) for p in (root / "Verif").rglob("*.lean"))
(root / "Verif.lean").write_text("".join(f"import {m}\n" for m in mods))
