#!/usr/bin/env python3
"""Set status and note of a property: claim.py Cnn status note"""
import json, sys, pathlib
root = pathlib.Path(__file__).resolve().parent.parent
f = root / "tools/claims.json"
c = json.loads(f.read_text())
c[sys.argv[1]] = {"status": sys.argv[2], "note": sys.argv[3]}
f.write_text(json.dumps(dict(sorted(c.items())), indent=1, ensure_ascii=False) + "\n")
