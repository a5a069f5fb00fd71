#!/usr/bin/env python3
"""Regenerate the generated parts of DESIGN.md (between `<!-- x -->` and `<!-- /x -->`): the findings with the first
sentence of their comment, the modelled source files per module, the status, and (with --axioms) the axioms of each property theorem."""
import json, re, pathlib, subprocess, sys, collections
root = pathlib.Path(__file__).resolve().parent.parent
man = json.loads((root / "MANIFEST.json").read_text())["claims"]
props = {p["id"]: p for p in map(json.loads, (root / "properties.jsonl").read_text().splitlines())}
FINDINGS = (root / "tools/findings.txt").read_text().split()
docs = {}
for f in sorted((root / "lean/Verif").rglob("*.lean")):
    for m in re.finditer(r"/--((?:(?!-/).)*)-/\s*(?:@\[[^\]]*\]\s*)?theorem (\S+)", f.read_text(), re.S):
        docs[m.group(2)] = " ".join(m.group(1).split())
def clean(d):
    d = re.sub(r"^\**C\d+(\**,? ?finding\.| \(negation\)[.:]?| \(finding\)[.:]?)?(\.|,)?\**", "", d)
    d = re.sub(r"^(\s|,|\.|:|\(negation\)[.:]?|is false\b\**)*", "", d)
    return d[:1].upper() + d[1:]
out = {}
lines = []
for c in man:
    for t in c["theorems"]:
        n = t.split(".")[-1]
        if n in FINDINGS:
            lines.append(f"* `{n}` – {clean(docs.get(n, ''))}")
out["findings"] = "\n".join(lines)
unknown = [n for n in FINDINGS if not any(t.split(".")[-1] == n for c in man for t in c["theorems"])]
if unknown: print("unknown findings:", unknown)
# modelled files
rs = list((pathlib.Path("/repo")).rglob("*.rs"))
byname = collections.defaultdict(list)
for r in rs: byname[r.name].append(str(r.relative_to("/repo")))
rows = []
for f in sorted((root / "lean/Verif").rglob("*.lean")):
    s = f.read_text()
    src = sorted(set(re.findall(r"[\w/\-]+\.rs", s)))
    full = sorted(x for x in src if any(y == x or y.endswith("/" + x) for y in byname[x.split("/")[-1]]))
    keep = [x for x in full if not any(y != x and y.endswith("/" + x) for y in full)]
    if keep: rows.append(f"| `{f.relative_to(root / 'lean')}` | {', '.join(keep)} |")
out["modelled"] = "| module | source files cited |\n|---|---|\n" + "\n".join(rows)
out["status"] = "| id | property | status | note |\n|---|---|---|---|\n" + "\n".join(
    f"| {c['property']} | {props[c['property']]['title']} | {c['status']} | {c['note']} |" for c in man) + "\n"
for p in props:
    if p not in {c["property"] for c in man}:
        out["status"] += f"| {p} | {props[p]['title']} | open | no theorem yet |\n"
if "--axioms" in sys.argv:
    names = [t for c in man for t in c["theorems"]]
    tmp = pathlib.Path("/tmp/axioms.lean")
    tmp.write_text("import Verif\n" + "\n".join(f"#print axioms {n}" for n in names))
    r = subprocess.run(["lake", "env", "lean", str(tmp)], cwd=root / "lean", capture_output=True, text=True).stdout
    r = re.sub(r"\n\s+", " ", r)
    groups = collections.defaultdict(list)
    for m in re.finditer(r"'(\S+)' (does not depend on any axioms|depends on axioms: \[([^\]]*)\])", r):
        groups[", ".join(sorted(x.strip() for x in (m.group(3) or "").split(","))) or "none"].append(m.group(1).split(".")[-1])
    assert sum(map(len, groups.values())) == len(names), (len(names), sum(map(len, groups.values())))
    out["axioms"] = "\n\n".join(f"**{k}** ({len(v)}): " + ", ".join(f"`{x}`" for x in v) for k, v in sorted(groups.items()))
d = (root / "DESIGN.md").read_text()
for k, v in out.items():
    d = re.sub(rf"<!-- {k} -->.*?<!-- /{k} -->", lambda _: f"<!-- {k} -->\n{v}\n<!-- /{k} -->", d, flags=re.S)
(root / "DESIGN.md").write_text(d)
