"""Writes AXIOMS.md: the axioms each theorem of the manifest depends on (asks Lean with #print axioms)."""
import json, os, re, subprocess, collections
root = os.path.join(os.path.dirname(os.path.abspath(__file__)), "..")
names = sorted({t for c in json.load(open(root + "/MANIFEST.json"))["claims"] for t in c["theorems"]})
src = "import Verif\n" + "".join(f"#print axioms {n}\n" for n in names)
open("/tmp/axioms_query.lean", "w").write(src)
out = subprocess.run(["lake", "env", "lean", "/tmp/axioms_query.lean"], cwd=root + "/lean", capture_output=True, text=True).stdout
out = re.sub(r"\n\s+", " ", out)
found = {}
for m in re.finditer(r"'([^']+(?:'[^' ]*)*)' (depends on axioms: \[([^\]]*)\]|does not depend on any axioms)", out):
    found[m.group(1)] = ", ".join(sorted(x.strip() for x in m.group(3).split(","))) if m.group(3) else "none"
missing = [n for n in names if n not in found]
assert not missing, missing
groups = collections.defaultdict(list)
for n in names:
    groups[found[n]].append(n)
with open(root + "/AXIOMS.md", "w") as f:
    f.write("# Axioms of the theorems in MANIFEST.json\n\nGenerated by `tools/axioms.py` from the output of `#print axioms`.\n")
    for g in sorted(groups):
        f.write(f"\n## {g}\n\n")
        for n in groups[g]:
            f.write(f"* `{n}`\n")
for g in sorted(groups):
    print(g, len(groups[g]))
