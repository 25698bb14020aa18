#!/usr/bin/env python3
"""Regenerate MANIFEST.json, lean/Verif/Axioms.lean and lean/Verif.lean from the sources.

Statuses and notes come from tools/status.json; theorem names from the files in lean/Verif/Props."""
import json, re, glob, os
root = os.path.dirname(os.path.dirname(os.path.abspath(__file__)))
lean = os.path.join(root, "lean")
status = json.load(open(os.path.join(root, "tools", "status.json")))
props = [json.loads(l)["id"] for l in open(os.path.join(root, "properties.jsonl")) if l.strip()]
thms = []
mods = []
for f in sorted(glob.glob(os.path.join(lean, "Verif", "**", "*.lean"), recursive=True)):
    m = os.path.relpath(f, lean)[:-5].replace("/", ".")
    mods.append(m)
    if "/Props/" not in f:
        continue
    ns = []
    for line in open(f):
        a = re.match(r"namespace (\S+)", line)
        b = re.match(r"end (\S+)", line)
        if a: ns.append(a.group(1))
        elif b and ns and ns[-1] == b.group(1): ns.pop()
        t = re.match(r"theorem ((C\d\d+)\w*)", line)
        if t: thms.append((t.group(2), ".".join(ns + [t.group(1)])))
claims = []
for p in props:
    names = [n for q, n in thms if q == p]
    st = status.get(p, {})
    claims.append({"property": p, "status": st.get("status", "not_applicable"),
                   "theorems": names, "note": st.get("note", "not modelled yet")})
    if names and p not in status: print("no status for", p)
    if not names and st.get("status") in ("proved", "partial"): print("no theorems for", p)
json.dump({"claims": claims}, open(os.path.join(root, "MANIFEST.json"), "w"), indent=1, ensure_ascii=False)
ax = "Verif.Axioms"
base = [m for m in mods if m != ax]
with open(os.path.join(lean, "Verif", "Axioms.lean"), "w") as o:
    for m in base:
        if ".Props." in m: o.write(f"import {m}\n")
    o.write("\n/-!\n# Axioms used by every property theorem\n\nThe only ones allowed are `propext`, `Classical.choice`, `Quot.sound`.\n-/\n\n")
    for _, n in thms: o.write(f"#print axioms {n}\n")
with open(os.path.join(lean, "Verif.lean"), "w") as o:
    for m in base + [ax]: o.write(f"import {m}\n")
print(len(thms), "theorems,", len({q for q, _ in thms}), "properties")
