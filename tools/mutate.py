#!/usr/bin/env python3
"""Apply wrong edits to a scratch copy of the model, rebuild, record which theorems fail.

Usage: mutate.py <mutants.py> [name-prefix]   (mutants.py defines M = [(file, definition, old, new, claim), ...])
Appends one JSON line per attempt to /verif/seeded/LOG.jsonl unless DRY is set in the environment.
"""
import json, os, re, runpy, shutil, subprocess, sys
SRC, DST, LOG = "/verif/lean", "/tmp/mut/lean", "/verif/seeded/LOG.jsonl"
PROP = re.compile(r"^[a-z]\d\d_")

def sync():
    os.makedirs("/tmp/mut", exist_ok=True)
    subprocess.run(["rsync", "-a", "--delete", SRC + "/", DST + "/"], check=False) if shutil.which("rsync") else (
        shutil.rmtree(DST, ignore_errors=True), shutil.copytree(SRC, DST, symlinks=True))

def decl_at(path, line):
    ls = open(path).read().split("\n")
    for i in range(min(line, len(ls)) - 1, -1, -1):
        m = re.match(r"\s*(?:private |protected |@\[[^\]]*\] )*(theorem|def|example|instance|abbrev|structure|inductive)\s*([^\s:({\[]*)", ls[i])
        if m:
            return m.group(2) or "example", m.group(1)
    return "?", "?"

def run(mut):
    f, d, old, new, claim = mut[:5]
    p = f"{DST}/Verif/{f}"
    orig = open(f"{SRC}/Verif/{f}").read()
    if orig.count(old) != 1:
        return {"definition": d, "edit": f"{old} -> {new}", "error": f"pattern occurs {orig.count(old)} times"}
    open(p, "w").write(orig.replace(old, new))
    out = subprocess.run(["lake", "build"], cwd=DST, capture_output=True, text=True)
    txt = out.stdout + out.stderr
    failed, kinds = [], set()
    for m in re.finditer(r"error: (Verif/[\w/]+\.lean):(\d+):", txt):
        n, kind = decl_at(f"{DST}/{m.group(1)}", int(m.group(2)))
        kinds.add(kind)
        if n not in failed: failed.append(n)
    mods = sorted(set(re.findall(r"^- (Verif[\w.]*)", txt, re.M)))
    open(p, "w").write(orig)
    if failed and not kinds & {"theorem", "example"}:  # no kill: no theorem was tested
        return {"definition": d, "edit": f"{old} -> {new}", "error": "the mutant does not compile"}
    return {"file": f"Verif/{f}", "definition": d, "edit": f"{old.strip()}  ->  {new.strip()}", "claim_broken": claim,
            "theorems_failed": failed, "failed_modules": mods, "survived": not failed and out.returncode == 0}

def main():
    M = runpy.run_path(sys.argv[1])["M"]
    sync()
    subprocess.run(["lake", "build"], cwd=DST, capture_output=True)
    for mut in M:
        r = run(mut)
        r["theorems_tightened"] = mut[5] if len(mut) > 5 else []
        r["survived_before_tightening"] = len(mut) > 5
        print(("SURVIVED " if r.get("survived") else "BAD " if "error" in r else "killed   ") + r["definition"] + " | " + r["edit"][:110].replace("\n", " ") +
              " | " + ",".join(r.get("theorems_failed", []))[:160] + r.get("error", ""), flush=True)
        if "error" not in r and not os.environ.get("DRY"):
            open(LOG, "a").write(json.dumps(r, ensure_ascii=False) + "\n")
    subprocess.run(["lake", "build"], cwd=DST, capture_output=True)
main()
