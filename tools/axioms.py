"""Writes AXIOMS.txt: the axioms each theorem named in MANIFEST.json depends on, as printed by Lean (needs a finished `lake build`)."""
import json, os, re, subprocess, tempfile
root = os.path.join(os.path.dirname(os.path.abspath(__file__)), "..")
names = [t for c in json.load(open(os.path.join(root, "MANIFEST.json")))["claims"] for t in c["theorems"]]
src = "import Verif\n" + "".join(f"#print axioms {n}\n" for n in names)
with tempfile.NamedTemporaryFile("w", suffix=".lean", delete=False) as f:
    f.write(src)
out = subprocess.run(["lake", "env", "lean", f.name], cwd=os.path.join(root, "lean"), capture_output=True, text=True).stdout
os.unlink(f.name)
out = re.sub(r"\n\s+", " ", out)
open(os.path.join(root, "AXIOMS.txt"), "w").write("\n".join(sorted(set(out.splitlines()))) + "\n")
allowed = {"propext", "Classical.choice", "Quot.sound"}
used = set(x.strip() for l in out.splitlines() if "[" in l for x in l[l.index("[") + 1:l.rindex("]")].split(","))
print(len(names), "theorems;", "axioms used:", sorted(used), "" if used <= allowed else "NOT ALLOWED")
