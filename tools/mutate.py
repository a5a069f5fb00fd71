#!/usr/bin/env python3
"""Try edited models in a scratch copy and log which theorems fail.

usage: mutate.py FILE.json    (a list of {file, def, old, new, claim, tightened?})
"""
import json, pathlib, re, shutil, subprocess, sys
root = pathlib.Path(__file__).resolve().parent.parent
scratch = pathlib.Path("/tmp/mut")
log = root / "seeded/LOG.jsonl"
muts = json.loads(pathlib.Path(sys.argv[1]).read_text())
subprocess.run(["rsync", "-a", "--delete", str(root / "lean") + "/", str(scratch) + "/"], check=True) if shutil.which("rsync") else \
    (shutil.rmtree(scratch, ignore_errors=True), shutil.copytree(root / "lean", scratch, symlinks=True))

def decl_at(path, line):
    name = None
    ns = []
    for i, l in enumerate(path.read_text().splitlines(), 1):
        if i > line:
            break
        if m := re.match(r"(?:@\[.*?\] )?(?:private |protected )?(theorem|def|instance|example|structure|inductive|abbrev)\b\s*(\S*)", l):
            name = f"{m.group(1)} {m.group(2)}".strip()
            if m.group(1) == "example":
                name = f"example at line {i}"
    return name

for m in muts:
    f = scratch / "Verif" / m["file"]
    src = f.read_text()
    assert src.count(m["old"]) >= 1, ("not found", m)
    if src.count(m["old"]) > 1 and not m.get("first"):
        print("ambiguous", m["old"], src.count(m["old"])); continue
    f.write_text(src.replace(m["old"], m["new"], 1))
    r = subprocess.run(["lake", "build"], cwd=scratch, capture_output=True, text=True)
    failed = []
    for fm in re.finditer(r"error: (Verif/\S+?\.lean):(\d+):\d+", r.stdout + r.stderr):
        d = decl_at(scratch / fm.group(1), int(fm.group(2)))
        e = f"{fm.group(1)}: {d}"
        if e not in failed:
            failed.append(e)
    f.write_text(src)
    survived = r.returncode == 0
    if any(x.startswith(f'Verif/{m["file"]}: def ') for x in failed) and not m.get("force"):
        print("INVALID ", m["def"], "|", m["claim"], "|", failed[:4], flush=True); continue
    print(("SURVIVED" if survived else "killed  "), m["def"], "|", m["claim"], "|", failed[:4], flush=True)
    entry = {"definition": m["def"], "file": m["file"], "edit": f'{m["old"]}  ==>  {m["new"]}', "claim": m["claim"],
             "failed": failed, "tightened": m.get("tightened", [])}
    if survived:
        entry["survived"] = True
    with log.open("a") as h:
        h.write(json.dumps(entry, ensure_ascii=False) + "\n")
