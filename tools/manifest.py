#!/usr/bin/env python3
"""Regenerate MANIFEST.json from the theorem names in lean/Verif/Props and tools/notes.json."""
import json, re, glob, os
root = os.path.dirname(os.path.dirname(os.path.abspath(__file__)))
notes = json.load(open(os.path.join(root, "tools", "notes.json")))
thms = {}
for f in sorted(glob.glob(os.path.join(root, "lean/Verif/Props/*.lean"))):
    for m in re.finditer(r"^(?:theorem|lemma) (C(\d\d\d?)_[\w']+)", open(f).read(), re.M):
        thms.setdefault("C" + m.group(2), []).append("Verif." + m.group(1))
claims = []
for line in open(os.path.join(root, "properties.jsonl")):
    c = json.loads(line)["id"]
    t = thms.get(c, [])
    if not t:
        claims.append({"property": c, "status": "partial", "theorems": [], "note": notes.get(c, "not proved yet")})
        continue
    part = any("_partial" in x or "_refuted" in x for x in t)
    claims.append({"property": c, "status": "partial" if part else "proved", "theorems": t, "note": notes.get(c, "")})
json.dump({"claims": claims}, open(os.path.join(root, "MANIFEST.json"), "w"), indent=1, ensure_ascii=False)
print({s: sum(1 for c in claims if c["status"] == s) for s in ("proved", "partial")},
      "without theorems:", [c["property"] for c in claims if not c["theorems"]])
