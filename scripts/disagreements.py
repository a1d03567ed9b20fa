#!/usr/bin/env python3
"""Rewrite section 6 of DESIGN.md from the doc comments of the theorems that refute a property."""
import glob, os, re
root = os.path.dirname(os.path.dirname(os.path.abspath(__file__)))
names = r"C\d\d+_\w*(?:wrong|never|ignores|rejected|inverted|reversed|unbound|conjugate|matrix_weights|unsorted)\w*"
found = {}
for f in glob.glob(os.path.join(root, "lean/Verif/Props/*.lean")):
    for m in re.finditer(r"/--((?:(?!-/).)*?)-/\s*(?:open [^\n]* in\s*)?theorem (%s)" % names, open(f).read(), re.S):
        if m.group(2) == "C71_rejected": continue
        found[m.group(2)] = (" ".join(m.group(1).split()).replace("**", ""), os.path.basename(f))
path = os.path.join(root, "DESIGN.md")
text = open(path).read().split("## 6. ")[0].rstrip() + "\n\n"
text += """## 6. Where the code does not have the property

Found by reading the code and proved of the model; the name is that of the theorem.

"""
for n in sorted(found): text += "* `%s` (%s): %s\n" % (n, found[n][1], found[n][0])
open(path, "w").write(text)
