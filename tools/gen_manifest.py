#!/usr/bin/env python3
"""Regenerates lean/Verif.lean (imports) and MANIFEST.json from lean/Verif/Props/*.lean.
Theorem names are `C<nn>_...`; a property is `partial` when listed in PARTIAL below."""
import json, re, glob, os
root = os.path.dirname(os.path.dirname(os.path.abspath(__file__)))
mods = []
for d in ("Model", "Spec", "Lemmas", "Props"):
    for f in sorted(glob.glob(f"{root}/lean/Verif/{d}/*.lean")):
        mods.append("Verif.%s.%s" % (d, os.path.basename(f)[:-5]))
open(f"{root}/lean/Verif.lean", "w").write("".join(f"import {m}\n" for m in mods))
notes = json.load(open(f"{root}/tools/notes.json"))
thms = {}
for f in sorted(glob.glob(f"{root}/lean/Verif/Props/*.lean")):
    ns = []
    for line in open(f):
        m = re.match(r"namespace (\S+)", line)
        if m: ns.append(m.group(1))
        m = re.match(r"end (\S+)", line)
        if m and ns and ns[-1] == m.group(1): ns.pop()
        m = re.match(r"(?:noncomputable )?theorem (C\d\d+)_(\S+)", line)
        if m:
            thms.setdefault(m.group(1), []).append(".".join(ns + [m.group(1) + "_" + m.group(2)]))
claims = []
for l in open(f"{root}/properties.jsonl"):
    p = json.loads(l)["id"]
    n = notes.get(p, {})
    t = thms.get(p, [])
    st = n.get("status") or ("partial" if (not t or any(x.endswith("_partial") for x in t)) else "proved")
    note = n.get("note", "" if t else "Not yet modelled.")
    claims.append({"property": p, "status": st, "theorems": t, "note": note})
json.dump({"claims": claims}, open(f"{root}/MANIFEST.json", "w"), indent=1, ensure_ascii=False)
from collections import Counter
print(Counter((c["status"], bool(c["theorems"])) for c in claims), len(mods), "modules")
