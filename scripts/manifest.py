#!/usr/bin/env python3
"""Regenerate MANIFEST.json from the theorem names in lean/Verif/Properties."""
import glob, json, os, re
root = os.path.dirname(os.path.dirname(os.path.abspath(__file__)))
notes = json.load(open(os.path.join(root, "scripts", "notes.json")))
props = [json.loads(l)["id"] for l in open(os.path.join(root, "properties.jsonl")) if l.strip()]
thms = {}
for f in sorted(glob.glob(os.path.join(root, "lean/Verif/Properties/*.lean"))):
    for m in re.finditer(r"^theorem (C(\d\d+)_\w+)", open(f).read(), re.M):
        thms.setdefault("C" + m.group(2), []).append("Verif." + m.group(1))
claims = []
for p in props:
    ts = thms.get(p, [])
    if not ts:
        status = "not_applicable"
    elif any(t.endswith("_partial") or t.endswith("_negation") for t in ts):
        status = "partial"
    else:
        status = "proved"
    claims.append({"property": p, "status": status, "theorems": ts, "note": notes.get(p, "")})
unknown = set(thms) - set(props)
assert not unknown, unknown
json.dump({"claims": claims}, open(os.path.join(root, "MANIFEST.json"), "w"), indent=1)
print({s: sum(c["status"] == s for c in claims) for s in ("proved", "partial", "not_applicable")})
