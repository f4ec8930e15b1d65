"""Run seeded bugs against the proofs in a scratch copy (default /tmp/scratch).
usage: mutate.py batch.json   where batch = [{"file","old","new","definition","edit","claim"}...]
Prints, per bug, the declarations whose check failed and the property theorems that use them; appends to seeded/LOG.jsonl."""
import json, os, re, subprocess, sys, shutil
root = "/verif"; scratch = "/tmp/scratch"
subprocess.run(["rsync", "-a", "--delete", root + "/lean/", scratch + "/"], check=True) if shutil.which("rsync") else \
    (shutil.rmtree(scratch, ignore_errors=True), shutil.copytree(root + "/lean", scratch, symlinks=True))
# dependency graph: declaration -> property theorems that use it
deps_src = r'''
import Lean
import Verif
open Lean
partial def go (env : Environment) (n : Name) : StateM NameSet Unit := do
  if (← get).contains n then return
  unless (`Radix).isPrefixOf n || (`Radix).isPrefixOf n.getRoot do return
  modify (·.insert n)
  match env.find? n with
  | none => return
  | some c =>
    for m in c.type.getUsedConstants do go env m
    if let some v := c.value? (allowOpaque := true) then for m in v.getUsedConstants do go env m
#eval show CoreM Unit from do
  let env ← getEnv
  for (n, c) in env.constants.map₁.toList do
    if let .str p s := n then
      if (`Radix).isPrefixOf p && s.length > 4 && s.startsWith "C" && (s.toList.getD 1 'x').isDigit && (s.toList.getD 2 'x').isDigit && !n.isInternal then
        if c matches .thmInfo _ then
          let ((), st) := (go env n).run {}
          IO.println s!"{n}\t{" ".intercalate (st.toList.map toString)}"
'''
def deps():
    open(scratch + "/Deps.lean", "w").write(deps_src)
    out = subprocess.run(["lake", "env", "lean", "Deps.lean"], cwd=scratch, capture_output=True, text=True)
    g = {}
    for l in out.stdout.splitlines():
        if "\t" in l:
            t, us = l.split("\t")
            for u in us.split(): g.setdefault(u, set()).add(t)
    if not g: print("deps failed", out.stdout[:500], out.stderr[:500])
    return g
def decl_at(path, line):
    ls = open(path).read().split("\n")
    for i in range(min(line, len(ls)) - 1, -1, -1):
        m = re.match(r"(?:private |protected |noncomputable |@\[.*?\] )*(theorem|def|instance|example|inductive|structure|abbrev)\s*(\S*)", ls[i])
        if m: return (m.group(2) if m.group(1) != "example" else "example@%d" % (i + 1)), m.group(1)
    return "?", "?"
def main():
    batch = json.load(open(sys.argv[1]))
    base = subprocess.run(["lake", "build"], cwd=scratch, capture_output=True, text=True)
    if base.returncode != 0:  # failures would be counted for every bug
        sys.exit("the copy does not build without a bug: " + (base.stdout + base.stderr)[-500:])
    g = deps()
    short = {}
    for k, v in g.items(): short.setdefault(k.split(".")[-1], set()).update(v)
    for b in batch:
        p = scratch + "/Verif/" + b["file"]
        orig = open(p).read()
        if orig.count(b["old"]) != 1:
            print("BAD PATTERN", orig.count(b["old"]), b["definition"], b["edit"]); continue
        open(p, "w").write(orig.replace(b["old"], b["new"]))
        out = subprocess.run(["lake", "build"], cwd=scratch, capture_output=True, text=True)
        txt = out.stdout + out.stderr
        if out.returncode < 0: sys.exit("the build was killed: nothing logged for this bug")
        failed, mods = [], set()
        for m in re.finditer(r"error: (Verif/\S+?\.lean):(\d+)", txt):
            d, kind = decl_at(scratch + "/" + m.group(1), int(m.group(2)))
            nm = m.group(1)[6:-5].replace("/", ".") + ":" + d
            if nm not in failed: failed.append(nm)
        props = set()
        for f in failed: props |= short.get(f.split(":")[1].split(".")[-1], set())
        defs_broken = [f for f in failed if False]
        print("==", b["definition"], "|", b["edit"], "|", b["claim"])
        print("   failed:", ", ".join(failed) or "NONE (still builds)" + ("" if out.returncode == 0 else " but build error: " + txt[-300:]))
        print("   properties:", ", ".join(sorted(x.split(".")[-1] for x in props)))
        open(p, "w").write(orig)
        rec = {"definition": b["definition"], "edit": b["edit"], "claim": b["claim"],
               "failed": failed, "properties_depending_on_failed": sorted(props), "tightened": b.get("tightened", []), "note": b.get("note", "")}
        if "--dry" not in sys.argv:
            open(root + "/seeded/LOG.jsonl", "a").write(json.dumps(rec, ensure_ascii=False) + "\n")
    subprocess.run(["lake", "build"], cwd=scratch, capture_output=True)
main()
