"""Merge notes given as a JSON object on stdin into tools/notes.json."""
import json, sys, os
p = os.path.join(os.path.dirname(os.path.abspath(__file__)), "notes.json")
d = json.load(open(p))
for k, v in json.load(sys.stdin).items():
    d[k] = v if isinstance(v, dict) else {"note": v}
json.dump(dict(sorted(d.items())), open(p, "w"), indent=0)
