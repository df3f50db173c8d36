#!/usr/bin/env python3
"""Regenerate the last two sections of DESIGN.md ("Modelled lines" and "Findings").

Modelled lines come from the citations in the doc comments of lean/Verif/Model; findings from MANIFEST.json.
"""
import glob, json, os, re
root = os.path.join(os.path.dirname(os.path.abspath(__file__)), "..")
SRC = json.load(open(os.path.join(root, "tools", "source_lines.json")))   # file -> number of lines
base = {}
for f in SRC:
    base.setdefault(os.path.basename(f), []).append(f)
cite = re.compile(r"((?:[\w]+/)*\w+\.py):\s?((?:\d+(?:-\d+)?)(?:(?:,|\s+and)\s+\d+(?:-\d+)?(?![\w.]))*)")
seen, defs = {}, {}
for lf in sorted(glob.glob(os.path.join(root, "lean/Verif/Model/*.lean"))):
    mod = os.path.basename(lf)[:-5]
    txt = open(lf).read()
    for m in re.finditer(r"/-[-!](.*?)-/", txt, re.S):
        com = re.sub(r"\s+", " ", m.group(1)).replace("/ ", "/")
        for name, spans in cite.findall(com):
            if name.startswith("regain/"):
                f = name
            else:
                c = base.get(os.path.basename(name), [])
                if len(c) > 1:
                    c = [x for x in c if ("forward_backward" in x) == (mod == "FB")]
                f = c[0] if c else name
            if f not in SRC:
                print("unknown file", name, "in", mod)
                continue
            for s in re.findall(r"\d+(?:-\d+)?", spans):
                a, b = (s.split("-") + [s])[:2] if "-" in s else (s, s)
                seen.setdefault(f, set()).update(range(int(a), int(b) + 1))
            defs.setdefault(f, set()).add(mod)
def ranges(s):
    s = sorted(s); out = []
    for x in s:
        if out and x <= out[-1][1] + 1:
            out[-1][1] = x
        else:
            out.append([x, x])
    return ", ".join(str(a) if a == b else f"{a}-{b}" for a, b in out)
T = ["## Modelled lines", "",
     "Lines of each source file cited by a definition of the model (generated by tools/mkdesign.py from the doc",
     "comments). Simplifications are stated in the comment of the definition. Everything else is not modelled.", "",
     "| file | lines modelled | model |", "|------|----------------|-------|"]
for f in sorted(seen):
    T.append(f"| {f} ({SRC[f]} lines) | {ranges(seen[f])} | {', '.join(sorted(defs[f]))} |")
T += ["", "Not modelled at all: " + ", ".join(f for f in sorted(SRC) if f not in seen and SRC[f] > 40
                                               and "/tests/" not in f) + ".", ""]
claims = json.load(open(os.path.join(root, "MANIFEST.json")))["claims"]
title = {}
for l in open(os.path.join(root, "properties.jsonl")):
    p = json.loads(l); title[p["id"]] = p["title"]
T += ["## Findings", "",
      "Properties the code does not have, or has only in part. Each entry names the theorems with the witnesses and",
      "the part which is proved. (Generated from MANIFEST.json by tools/mkdesign.py.)", ""]
for c in claims:
    if c["status"] != "partial":
        continue
    neg = [t.split(".")[-1] for t in c["theorems"] if t.endswith(("_false", "_counterexample"))]
    par = [t.split(".")[-1] for t in c["theorems"] if t.endswith("_partial")]
    T.append(f"* **{c['property']}, {title[c['property']]}.** {c['note']}")
    if neg:
        T.append("  Refuted: " + ", ".join(f"`{t}`" for t in neg) + ".")
    if par:
        T.append("  Holds: " + ", ".join(f"`{t}`" for t in par) + ".")
p = os.path.join(root, "DESIGN.md")
s = open(p).read()
i = s.find("## Modelled lines")
s = (s[:i] if i >= 0 else s.rstrip("\n") + "\n\n") + "\n".join(T) + "\n"
open(p, "w").write(s)
