#!/usr/bin/env python3
"""Writes MANIFEST.json (and lean/Verif.lean) from the theorem names in lean/Verif/Props.

A theorem `Cxx_...` in a file of Props belongs to property Cxx. STATUS gives status and note."""
import json, os, re, glob
root = os.path.dirname(os.path.dirname(os.path.abspath(__file__)))
STATUS = {}
missing = []
exec(open(os.path.join(root, "tools", "status.py")).read())
thms = {}
for f in sorted(glob.glob(root + "/lean/Verif/Props/*.lean")):
    ns = []
    for line in open(f):
        m = re.match(r"namespace (\S+)", line)
        if m: ns.append(m.group(1))
        m = re.match(r"end (\S+)", line)
        if m and ns and ns[-1] == m.group(1): ns.pop()
        m = re.match(r"(?:protected )?theorem (C\d\d+)(_\w+)", line)
        if m:
            thms.setdefault(m.group(1), []).append(".".join(ns + [m.group(1) + m.group(2)]))
claims = []
for line in open(root + "/properties.jsonl"):
    i = json.loads(line)["id"]
    if i in thms:
        st, note = STATUS[i]
        if st == "proved":
            thms[i] = [t for t in thms[i] if not t.endswith("_partial")]
        claims.append({"property": i, "status": st, "theorems": thms[i], "note": note})
    elif i in STATUS:
        raise SystemExit(f"{i} has a status but no theorem")
    else:
        missing.append(i)
json.dump({"claims": claims}, open(root + "/MANIFEST.json", "w"), indent=1, ensure_ascii=False)
open(root + "/MANIFEST.json", "a").write("\n")
mods = sorted(os.path.relpath(f, root + "/lean")[:-5].replace("/", ".")
              for f in glob.glob(root + "/lean/Verif/**/*.lean", recursive=True))
open(root + "/lean/Verif.lean", "w").write("".join(f"import {m}\n" for m in mods))
print(len(claims), "claims,", sum(len(c["theorems"]) for c in claims), "theorems")
print("no theorem yet:", *missing)
