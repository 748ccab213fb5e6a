#!/usr/bin/env python3
"""Regenerates MANIFEST.json and lean/Verif.lean from the sources.

Theorem names start with the property id; a property with a `_partial` or `_violated` theorem is
reported as partial.  Notes are in tools/notes.json.
"""
import json, os, re
root = os.path.dirname(os.path.dirname(os.path.abspath(__file__)))
lean = os.path.join(root, "lean")
mods, thms = [], {}
for d, _, fs in sorted(os.walk(os.path.join(lean, "Verif"))):
    for f in sorted(fs):
        if f.endswith(".lean"):
            path = os.path.join(d, f)
            mods.append(os.path.relpath(path, lean)[:-5].replace("/", "."))
            ns = []
            for line in open(path):
                m = re.match(r"namespace (\S+)", line)
                if m: ns.append(m.group(1))
                m = re.match(r"end (\S+)", line)
                if m and ns and ns[-1] == m.group(1): ns.pop()
                m = re.match(r"(?:@\[[^\]]*\] *)?theorem (C\d+)(_\S+)", line)
                if m:
                    thms.setdefault(m.group(1), []).append(".".join(ns + [m.group(1) + m.group(2)]))
open(os.path.join(lean, "Verif.lean"), "w").write("".join(f"import {m}\n" for m in sorted(mods)))
notes = json.load(open(os.path.join(root, "tools", "notes.json")))
claims = []
for line in open(os.path.join(root, "properties.jsonl")):
    p = json.loads(line)
    i = p["id"]
    t = thms.get(i, [])
    n = notes.get(i, {})
    if "status" in n: st = n["status"]
    elif not t: continue
    else: st = "partial" if any(x.endswith("_partial") or "_violated" in x for x in t) else "proved"
    claims.append({"property": i, "status": st, "theorems": t, "note": n.get("note", "")})
json.dump({"claims": claims}, open(os.path.join(root, "MANIFEST.json"), "w"), indent=1)
missing = [json.loads(l)["id"] for l in open(os.path.join(root, "properties.jsonl")) if json.loads(l)["id"] not in {c["property"] for c in claims}]
print(len(claims), "claims;", sum(len(c["theorems"]) for c in claims), "theorems; missing:", missing)
unknown = set(thms) - {json.loads(l)["id"] for l in open(os.path.join(root, "properties.jsonl"))}
if unknown: print("UNKNOWN ids:", unknown)
