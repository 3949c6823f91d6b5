#!/usr/bin/env python3
"""Regenerate MANIFEST.json from the theorem names in lean/Verif/Props and tools/notes.json.

notes.json maps a property id to {"status": ..., "note": ...}; without an entry the status is
"proved" if there are theorems and "partial" otherwise."""
import json
import re
from pathlib import Path

root = Path(__file__).resolve().parent.parent
props = [json.loads(l)["id"] for l in (root / "properties.jsonl").read_text().splitlines() if l.strip()]
notes = json.loads((root / "tools/notes.json").read_text())
thms = {}
for f in sorted((root / "lean/Verif/Props").rglob("*.lean")):
    for m in re.finditer(r"^theorem (C(\d+)_\w+'*)", f.read_text(), re.M):
        thms.setdefault("C" + m.group(2), []).append("Cyjax." + m.group(1))
claims = []
for p in props:
    n = notes.get(p, {})
    t = thms.get(p, [])
    status = n.get("status", "proved" if t else "partial")
    claims.append({"property": p, "status": status, "theorems": t,
                   "note": n.get("note", "" if t else "planned")})
(root / "MANIFEST.json").write_text(json.dumps({"claims": claims}, indent=1, ensure_ascii=False) + "\n")
extra = set(thms) - set(props)
if extra:
    print("theorems without property:", extra)
print({s: sum(c["status"] == s for c in claims) for s in {c["status"] for c in claims}},
      "empty:", [c["property"] for c in claims if not c["theorems"]])
