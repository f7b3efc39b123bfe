#!/usr/bin/env python3
"""Regenerate MANIFEST.json from the theorem names in lean/Verif/Props and tools/status.json."""
import json, re, glob, os
root = os.path.dirname(os.path.dirname(os.path.abspath(__file__)))
thms = {}
for f in sorted(glob.glob(root + "/lean/Verif/Props/*.lean")):
    src = open(f).read()
    for m in re.finditer(r"^theorem (C\d\d\d?)(_\w+)", src, re.M):
        thms.setdefault(m.group(1), []).append("Pytimize.Props." + m.group(1) + m.group(2))
status = json.load(open(root + "/tools/status.json"))
props = [json.loads(l)["id"] for l in open(root + "/properties.jsonl")]
claims = []
for p in props:
    st = status.get(p)
    if st is None:
        continue
    assert thms.get(p) or st["status"] == "not_applicable", p
    claims.append({"property": p, "status": st["status"], "theorems": thms.get(p, []), "note": st.get("note", "")})
for p in thms:
    assert p in status, "no status for " + p
json.dump({"claims": claims}, open(root + "/MANIFEST.json", "w"), indent=1)
print(len(claims), "claims", sum(len(c["theorems"]) for c in claims), "theorems")
