#!/usr/bin/env python3
"""Regenerate MANIFEST.json from the property theorems (`theorem Cnn_...`) in lean/Verif and the
status and note of each property in tools/claims.json."""
import json, re, pathlib
root = pathlib.Path(__file__).resolve().parent.parent
notes = json.loads((root / "tools/claims.json").read_text())
thms = {}
for f in sorted((root / "lean/Verif").rglob("*.lean")):
    ns = []
    for line in f.read_text().splitlines():
        if m := re.match(r"namespace ([A-Z][\w.]*)\s*$", line):
            ns.append(m.group(1))
        elif m := re.match(r"end (\S+)\s*$", line):
            if ns and ns[-1] == m.group(1):
                ns.pop()
        elif m := re.match(r"(?:protected )?theorem (C\d\d+_\S+)", line):
            name = m.group(1).rstrip(":")
            thms.setdefault(name.split("_")[0], []).append(".".join(ns + [name]))
props = [json.loads(l)["id"] for l in (root / "properties.jsonl").read_text().splitlines() if l.strip()]
claims = []
for p in props:
    n = notes.get(p)
    if p in thms or n:
        n = n or {"status": "partial", "note": ""}
        claims.append({"property": p, "status": n["status"], "theorems": thms.get(p, []), "note": n["note"]})
(root / "MANIFEST.json").write_text(json.dumps({"claims": claims}, indent=1, ensure_ascii=False) + "\n")
missing = [p for p in props if p not in thms]
print(len(claims), "claims;", sum(map(len, thms.values())), "theorems; none yet:", " ".join(missing))
nonote = [c["property"] for c in claims if not c["note"]]
print("no note:", nonote)
