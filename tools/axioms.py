#!/usr/bin/env python3
"""Print the axioms of every theorem named in MANIFEST.json that uses anything besides the standard three."""
import json, os, re, subprocess, tempfile
root = os.path.dirname(os.path.dirname(os.path.abspath(__file__)))
names = sorted({t for c in json.load(open(os.path.join(root, "MANIFEST.json")))["claims"] for t in c["theorems"]})
with tempfile.NamedTemporaryFile("w", suffix=".lean", delete=False) as f:
    f.write("import Verif\n" + "".join(f"#print axioms {n}\n" for n in names))
out = subprocess.run(["lake", "env", "lean", f.name], cwd=os.path.join(root, "lean"), capture_output=True, text=True)
text = (out.stdout + out.stderr).replace("\n", " ")
allowed = {"propext", "Classical.choice", "Quot.sound"}
used = {a.strip() for m in re.findall(r"\[([^\]]*)\]", text) for a in m.split(",")}
print(len(names), "theorems; axioms used:", sorted(used), "" if used <= allowed and "error:" not in text else "PROBLEM\n" + text[:3000])
