#!/usr/bin/env python3
"""Writes INDEX.md: for each property its theorems, the module that proves each, and the axioms it depends on.

Run after a build: `#print axioms` is asked of Lean for every theorem of MANIFEST.json."""
import glob, json, os, re, subprocess, tempfile
root = os.path.dirname(os.path.dirname(os.path.abspath(__file__)))
claims = json.load(open(root + "/MANIFEST.json"))["claims"]
where = {}
for f in glob.glob(root + "/lean/Verif/Props/*.lean"):
    for m in re.finditer(r"^(?:protected )?theorem (C\d\d+_\w+)", open(f).read(), re.M):
        where[m.group(1)] = "Props/" + os.path.basename(f)
names = [t for c in claims for t in c["theorems"]]
with tempfile.NamedTemporaryFile("w", suffix=".lean", delete=False) as g:
    g.write("import Verif\n" + "".join(f"#print axioms {t}\n" for t in names))
out = subprocess.run(["lake", "env", "lean", g.name], cwd=root + "/lean", capture_output=True, text=True).stdout
os.unlink(g.name)
ax = {}
for m in re.finditer(r"'(\S+)' (?:depends on axioms: \[([^\]]*)\]|does not depend on any axioms)", out):
    ax[m.group(1)] = ", ".join(sorted((m.group(2) or "").replace("\n", " ").split(", "))) or "none"
titles = {json.loads(l)["id"]: json.loads(l)["title"] for l in open(root + "/properties.jsonl")}
with open(root + "/INDEX.md", "w") as o:
    o.write("# Theorems, modules and axioms\n\nWritten by `tools/gen_index.py` from the output of `#print axioms`.\n"
            "Short names: P = `propext`, C = `Classical.choice`, Q = `Quot.sound`.\n")
    short = {"propext": "P", "Classical.choice": "C", "Quot.sound": "Q", "none": "none", "": "none"}
    for c in claims:
        o.write(f"\n## {c['property']}: {titles[c['property']]} ({c['status']})\n\n| Theorem | Module | Axioms |\n|---|---|---|\n")
        for t in c["theorems"]:
            a = " ".join(short.get(x.strip(), x.strip()) for x in ax[t].split(","))
            o.write(f"| `{t}` | {where[t.split('.')[-1]]} | {a} |\n")
print(len(ax), "of", len(names), "theorems;", sorted({x for v in ax.values() for x in v.split(", ")}))
