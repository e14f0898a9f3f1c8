#!/usr/bin/env python3
"""Write AXIOMS.md: the axioms each theorem of MANIFEST.json depends on (needs a built project)."""
import json, re, subprocess, os
root = os.path.dirname(os.path.dirname(os.path.abspath(__file__)))
claims = json.load(open(root + "/MANIFEST.json"))["claims"]
src = "import Verif\n" + "".join("#print axioms %s\n" % t for c in claims for t in c["theorems"])
open("/tmp/Axioms.lean", "w").write(src)
out = subprocess.run(["lake", "env", "lean", "/tmp/Axioms.lean"], cwd=root + "/lean", capture_output=True, text=True).stdout
out = re.sub(r"\n\s+", " ", out)
ax = {}
for m in re.finditer(r"'([^']+(?:'(?=\S)[^']*)*)' (?:depends on axioms: \[([^\]]*)\]|does not depend on any axioms)", out):
    ax[m.group(1)] = m.group(2) or "none"
with open(root + "/AXIOMS.md", "w") as f:
    f.write("# Axioms per theorem\n\nOutput of `#print axioms`, written by `tools/axioms.py`.\n\n| property | theorem | axioms |\n|---|---|---|\n")
    for c in claims:
        for t in c["theorems"]:
            f.write("| %s | `%s` | %s |\n" % (c["property"], t, ax.get(t, "MISSING")))
print(sorted(set(ax.values())), [t for c in claims for t in c["theorems"] if t not in ax])
