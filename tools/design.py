#!/usr/bin/env python3
"""Regenerates DESIGN.md: tools/design_head.md followed by the table of properties."""
import json, os, re
root = os.path.dirname(os.path.dirname(os.path.abspath(__file__)))
props = [json.loads(l) for l in open(os.path.join(root, "properties.jsonl"))]
man = {c["property"]: c for c in json.load(open(os.path.join(root, "MANIFEST.json")))["claims"]}
where = {}
for d, _, fs in sorted(os.walk(os.path.join(root, "lean", "Verif"))):
    for f in sorted(fs):
        if f.endswith(".lean"):
            for line in open(os.path.join(d, f)):
                m = re.match(r"(?:@\[[^\]]*\] *)?theorem (C\d+)_", line)
                if m:
                    s = where.setdefault(m.group(1), [])
                    p = os.path.relpath(os.path.join(d, f), os.path.join(root, "lean", "Verif"))[:-5]
                    if p not in s: s.append(p)
out = open(os.path.join(root, "tools", "design_head.md")).read()
out += "| id | property | theorems in | status | what is proved, how, and what is missing |\n|---|---|---|---|---|\n"
for p in props:
    c = man.get(p["id"], {"status": "missing", "note": ""})
    out += f"| {p['id']} | {p['title']} | {', '.join(where.get(p['id'], []))} | {c['status']} | {c['note'].replace('|', '/')} |\n"
open(os.path.join(root, "DESIGN.md"), "w").write(out)
