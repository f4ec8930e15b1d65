"""Write AXIOMS.md: the axioms that each property theorem depends on. Run from lean/ after `lake build`."""
import json, subprocess, os
names = [t for c in json.load(open("../MANIFEST.json"))["claims"] for t in c["theorems"]]
src = "import Verif\n" + "\n".join("#print axioms %s" % n for n in names)
open("/tmp/Axioms.lean", "w").write(src)
out = subprocess.run(["lake", "env", "lean", "/tmp/Axioms.lean"], capture_output=True, text=True).stdout.replace("\n ", " ")
groups = {}
for l in out.splitlines():
    if "depends on axioms:" in l:
        n, a = l.split(" depends on axioms: ")
        key = ", ".join(sorted(a.strip("[] ").split(", ")))
    elif "does not depend on any axioms" in l:
        n, key = l.split(" does not")[0], "none"
    else:
        continue
    groups.setdefault(key, []).append(n.strip("'"))
found = sum(len(v) for v in groups.values())
assert found == len(names), (found, len(names), out[:500])
with open("../AXIOMS.md", "w") as f:
    f.write("# Axioms of the property theorems\n\nGenerated by `tools/axioms.py` (`#print axioms` for every theorem of MANIFEST.json, %d in all).\n" % found)
    for k in sorted(groups):
        f.write("\n## %s\n\n" % k + "\n".join("* `%s`" % n for n in groups[k]) + "\n")
print({k: len(v) for k, v in groups.items()})
