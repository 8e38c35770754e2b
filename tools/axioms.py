"""Print the axioms every theorem of MANIFEST.json depends on, grouped, as Markdown (for DESIGN.md).

usage: axioms.py   (after `lake build`; writes /verif/AXIOMS.md)
"""
import json, subprocess, re, tempfile, os
names = []
for c in json.load(open("/verif/MANIFEST.json"))["claims"]:
    for t in c["theorems"]:
        if t not in names: names.append(t)
src = "import Verif\n" + "".join(f"#print axioms {n}\n" for n in names)
f = tempfile.NamedTemporaryFile("w", suffix=".lean", delete=False); f.write(src); f.close()
out = subprocess.run(["lake", "env", "lean", f.name], cwd="/verif/lean", capture_output=True, text=True).stdout
os.unlink(f.name)
groups = {}
for n in names:
    m = re.search(r"'" + re.escape(n) + r"' (does not depend on any axioms|depends on axioms: \[([^\]]*)\])", out)
    assert m, n
    key = "none" if m.group(2) is None else ", ".join(sorted(x.strip() for x in m.group(2).split(",")))
    groups.setdefault(key, []).append(n)
with open("/verif/AXIOMS.md", "w") as g:
    g.write("# Axioms of the property theorems\n\nWritten by `tools/axioms.py` from `#print axioms`.\n")
    for k in sorted(groups):
        g.write(f"\n## {k} ({len(groups[k])} theorems)\n\n" + "\n".join(f"* `{n}`" for n in groups[k]) + "\n")
print({k: len(v) for k, v in groups.items()})
