"""Regenerates lean/Verif.lean: one import per module under lean/Verif."""
import os
root = os.path.join(os.path.dirname(os.path.abspath(__file__)), "..", "lean")
mods = []
for d, _, fs in os.walk(os.path.join(root, "Verif")):
    for f in fs:
        if f.endswith(".lean"):
            mods.append(os.path.relpath(os.path.join(d, f), root)[:-5].replace("/", "."))
open(os.path.join(root, "Verif.lean"), "w").write("".join(f"import {m}\n" for m in sorted(mods)))
