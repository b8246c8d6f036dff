#!/usr/bin/env python3
"""Regenerate AXIOMS.md: the axioms each theorem named in MANIFEST.json depends on (`#print axioms`, after `lake build`)."""
import collections, json, pathlib, re, subprocess, tempfile
top = pathlib.Path(__file__).resolve().parent.parent
claims = json.loads((top / "MANIFEST.json").read_text())["claims"]
names = [t for c in claims for t in c["theorems"]]
with tempfile.NamedTemporaryFile("w", suffix=".lean", delete=False) as f:
    f.write("import Verif\n" + "".join(f"#print axioms Specula.{n}\n" for n in dict.fromkeys(names)))
out = subprocess.run(["lake", "env", "lean", f.name], cwd=top / "lean", capture_output=True, text=True).stdout
ax = {}
for m in re.finditer(r"'Specula\.(\S+)' (does not depend on any axioms|depends on axioms: \[([^\]]*)\])", out):
    ax[m.group(1)] = " ".join((m.group(3) or "none").replace("\n", " ").split())
missing = [n for n in names if n not in ax]
assert not missing, missing
count = collections.Counter(ax.values())
lines = ["# Axioms of the theorems of MANIFEST.json", "", "Written by `tools/axioms.py` from `#print axioms`.", ""]
lines += [f"* {k}: {v} theorems" for k, v in count.most_common()]
for k, _ in count.most_common():
    lines += ["", f"## {k}", ""]
    for c in claims:
        ts = [t for t in c["theorems"] if ax[t] == k]
        if ts:
            lines.append(f"* {c['property']}: " + ", ".join(f"`{t}`" for t in ts))
(top / "AXIOMS.md").write_text("\n".join(lines) + "\n")
