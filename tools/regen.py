#!/usr/bin/env python3
"""Regenerate lean/Verif.lean, lean/Verif/Audit.lean and MANIFEST.json from the Lean sources.

A property is "partial" when one of its theorems ends in _partial or _false, or when notes.json says so.
"""
import glob, json, os, re
root = os.path.join(os.path.dirname(os.path.abspath(__file__)), "..")
lean = os.path.join(root, "lean")
mods = []
for d in ("Spec", "Model", "Lemmas", "Props"):
    for f in sorted(glob.glob(os.path.join(lean, "Verif", d, "*.lean"))):
        mods.append(f"Verif.{d}.{os.path.basename(f)[:-5]}")
thms = {}
order = []
for m in mods:
    if not m.startswith("Verif.Props."):
        continue
    src = open(os.path.join(lean, *m.split(".")) + ".lean").read()
    ns = re.search(r"^namespace (\S+)", src, re.M).group(1)
    for t in re.findall(r"^theorem (C\d+_[\w']+)", src, re.M):
        thms.setdefault(t[:t.index("_")], []).append(f"{ns}.{t}")
        order.append(f"{ns}.{t}")
with open(os.path.join(lean, "Verif.lean"), "w") as f:
    for m in mods:
        f.write(f"import {m}\n")
    f.write("import Verif.Audit\n")
with open(os.path.join(lean, "Verif", "Audit.lean"), "w") as f:
    for m in mods:
        if m.startswith("Verif.Props."):
            f.write(f"import {m}\n")
    f.write("\n/-! Axiom audit: every property theorem may depend on `propext`, `Classical.choice` and\n"
            "`Quot.sound` only. Generated by tools/regen.py. -/\n\n")
    for t in order:
        f.write(f"#print axioms {t}\n")
notes = json.load(open(os.path.join(root, "tools", "notes.json")))
claims = []
props = [json.loads(l)["id"] for l in open(os.path.join(root, "properties.jsonl"))]
for p in props:
    n = notes.get(p, {})
    ts = thms.get(p, [])
    if ts:
        st = n.get("status") or ("partial" if any(t.endswith(("_partial", "_false", "_counterexample")) for t in ts)
                                 else "proved")
    elif n.get("status") == "not_applicable":
        st = "not_applicable"
    else:
        print("no theorem for", p)
        continue
    claims.append({"property": p, "status": st, "theorems": ts, "note": n.get("note", "")})
    if not n.get("note"):
        print("no note for", p)
for p in thms:
    if p not in props:
        print("theorem for unknown property", p)
json.dump({"claims": claims}, open(os.path.join(root, "MANIFEST.json"), "w"), indent=1)
print(len(claims), "claims,", len(order), "theorems")
