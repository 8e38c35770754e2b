#!/usr/bin/env python3
"""Regenerates /verif/MANIFEST.json and /verif/lean/Verif.lean.
Theorem names are collected from lean/Verif/Props (every theorem whose name starts with a property
id); the status and note of each property are in tools/status.json."""
import json, os, re, glob
root = os.path.join(os.path.dirname(os.path.abspath(__file__)), "..")
names = {}
for f in sorted(glob.glob(root + "/lean/Verif/Props/*.lean")):
    ns = []
    for line in open(f):
        m = re.match(r"namespace (\S+)", line)
        if m: ns.append(m.group(1)); continue
        m = re.match(r"end (\S+)", line)
        if m and ns and ns[-1] == m.group(1): ns.pop(); continue
        m = re.match(r"theorem ((C\d{2,3})_\S+)", line)
        if m: names.setdefault(m.group(2), []).append(".".join(ns + [m.group(1)]))
status = json.load(open(root + "/tools/status.json"))
ids = [json.loads(l)["id"] for l in open(root + "/properties.jsonl")]
claims = []
for i in ids:
    st, note, *extra = status.get(i, ["not_applicable", "Not modelled yet."])
    allnames = [n for l in names.values() for n in l]
    for e in (extra[0] if extra else []):  # theorems of another property that this one also rests on
        full = [n for n in allnames if n.endswith("." + e)]
        if len(full) != 1: print("warning: extra theorem", e, full)
        names.setdefault(i, []).extend(n for n in full if n not in names.get(i, []))
    if st == "not_applicable" and names.get(i): print("warning: theorems but n/a", i)
    if st != "not_applicable" and not names.get(i): print("warning: no theorems", i)
    claims.append(dict(property=i, status=st, theorems=names.get(i, []), note=note))
with open(root + "/MANIFEST.json", "w") as f:
    f.write('{"claims": [\n' + ",\n".join(" " + json.dumps(c, ensure_ascii=False) for c in claims) + "\n]}\n")
mods = sorted(os.path.relpath(p, root + "/lean")[:-5].replace("/", ".")
              for p in glob.glob(root + "/lean/Verif/**/*.lean", recursive=True))
with open(root + "/lean/Verif.lean", "w") as f:
    f.write("".join("import %s\n" % m for m in mods))
print({s: sum(1 for c in claims if c["status"] == s) for s in ("proved", "partial", "not_applicable")},
      sum(len(c["theorems"]) for c in claims), "theorems")
