#!/usr/bin/env python3
"""Writes /verif/FINDINGS.md: every theorem that refutes (part of) a property, with its comment."""
import re, glob, os
root = os.path.join(os.path.dirname(os.path.abspath(__file__)), "..")
others = {"C06_xor_not_downClosed", "C11_length_unchecked",
  "C15_expandAll_duplicates", "C17_dangling", "C18_throw_replaces_limiter", "C18_reducedMargin_violates",
  "C19_dense_length_zero", "C19_dense_last_start_zero", "C20_compressed_absent_out_of_bounds", "C23_degree_zero_ignored",
  "C23_dense_last_term_constant", "C59_set_at_length_corrupts", "C59_get_at_length_accepted", "C59_const_zero_length"}
rows = []
for f in sorted(glob.glob(root + "/lean/Verif/Props/*.lean")):
    s = open(f).read()
    for m in re.finditer(r"(?:/--((?:(?!-/).)*?)-/\s*)?theorem ((C\d{2,3})_\w+)", s, re.S):
        n = m.group(2)
        if "_fails" in n or n in others:
            if not m.group(1): print("no comment:", n)
            rows.append((m.group(3), n, " ".join((m.group(1) or "").split()), os.path.basename(f)))
rows.sort(key=lambda r: r[0])
with open(root + "/FINDINGS.md", "w") as o:
    o.write("# Where the code does not have a property\n\nWritten by `tools/findings.py` from the comments of the theorems. "
            "Each entry is a theorem about the model of the code as it is.\n\n")
    for c, n, d, f in rows:
        o.write("* `%s` (`Props/%s`): %s\n" % (n, f, d))
print(len(rows))
