"""Writes AXIOMS.md: the axioms of every theorem named in MANIFEST.json (run after lake build)."""
import json, os, re, subprocess, collections
root = os.path.dirname(os.path.dirname(os.path.abspath(__file__)))
claims = json.load(open(os.path.join(root, "MANIFEST.json")))["claims"]
names = []
for c in claims:
    for t in c["theorems"]:
        if t not in names:
            names.append(t)
src = "import Verif\n" + "".join(f"#print axioms {n}\n" for n in names)
tmp = "/tmp/axioms_query.lean"
open(tmp, "w").write(src)
out = subprocess.run(["lake", "env", "lean", tmp], cwd=os.path.join(root, "lean"), capture_output=True, text=True).stdout
out = re.sub(r"\n\s+", " ", out)
deps = {}
for m in re.finditer(r"'([^']+(?:'[^' ]*)*)' (does not depend on any axioms|depends on axioms: \[([^\]]*)\])", out):
    deps[m.group(1)] = m.group(3) or "none"
groups = collections.defaultdict(list)
for n in names:
    groups[deps.get(n, "NOT REPORTED")].append(n)
with open(os.path.join(root, "AXIOMS.md"), "w") as f:
    f.write("# Axioms of the theorems in MANIFEST.json\n\nGenerated by `tools/axioms.py` from `#print axioms`.\n")
    for k in sorted(groups, key=lambda k: len(groups[k])):
        f.write(f"\n## {k} ({len(groups[k])} theorems)\n\n")
        f.write("".join(f"* `{n}`\n" for n in groups[k]))
print({k: len(v) for k, v in groups.items()})
