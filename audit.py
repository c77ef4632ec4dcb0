"""Write lean/Verif/Audit.lean, which checks the axioms of every theorem that MANIFEST.json names."""
import json
import os
import re
import subprocess

root = os.path.dirname(os.path.abspath(__file__))
names = []
for claim in json.load(open(os.path.join(root, "MANIFEST.json")))["claims"]:
    names += [t for t in claim["theorems"] if t not in names]
imports = [l for l in open(os.path.join(root, "lean/Verif.lean")).read().split("\n")
           if l.startswith("import") and not l.endswith("Audit")]
head = "\n".join(imports)
tmp = "/tmp/AuditTmp.lean"
open(tmp, "w").write(head + "\n\n" + "\n".join("#print axioms " + n for n in names) + "\n")
out = subprocess.run(["lake", "env", "lean", tmp], cwd=os.path.join(root, "lean"), capture_output=True, text=True).stdout
found = dict(re.findall(r"^'([^']+(?:'+(?=' ))?)' (depends on axioms: \[[^\]]*\]|does not depend on any axioms)", out, re.M))
allowed = {"propext", "Classical.choice", "Quot.sound"}
body = []
for n in names:
    ax = re.findall(r"\[([^\]]*)\]", found[n])
    used = {a.strip() for a in ax[0].split(",")} if ax else set()
    assert used <= allowed, (n, used)
    msg = " ".join(("'%s' %s" % (n, found[n])).split())
    body.append("/-- info: %s -/\n#guard_msgs (whitespace := lax) in\n#print axioms %s" % (msg, n))
open(os.path.join(root, "lean/Verif/Audit.lean"), "w").write(
    head + "\n\n/-! The axioms of the theorems that MANIFEST.json names. The build fails if one of them uses another axiom."
    "\nWritten by audit.py. -/\n\n" + "\n\n".join(body) + "\n")
print(len(names), "theorems")
