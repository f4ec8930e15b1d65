"""Rebuild /verif/MANIFEST.json from the theorem names Cxx_* in lean/Verif/Props and the notes below."""
import json, re, glob, os
root = os.path.dirname(os.path.dirname(os.path.abspath(__file__)))
notes = json.load(open(os.path.join(root, "tools", "notes.json")))
thms = {}
for f in sorted(glob.glob(os.path.join(root, "lean/Verif/Props/*.lean"))):
    ns = []
    for line in open(f):
        m = re.match(r"namespace (\S+)", line)
        if m: ns.append(m.group(1))
        m = re.match(r"end (\S+)", line)
        if m and ns and ns[-1] == m.group(1): ns.pop()
        m = re.match(r"theorem ((C\d\d\d?)_\S+)", line)
        if m: thms.setdefault(m.group(2), []).append(".".join(ns + [m.group(1)]))
claims = []
for line in open(os.path.join(root, "properties.jsonl")):
    pid = json.loads(line)["id"]
    n = notes.get(pid, {})
    ts = thms.get(pid, [])
    if n.get("status") == "not_applicable":
        claims.append({"property": pid, "status": "not_applicable", "theorems": ts, "note": n["note"]}); continue
    if not ts: continue
    status = n.get("status") or ("partial" if any(t.endswith("_partial") for t in ts) else "proved")
    claims.append({"property": pid, "status": status, "theorems": ts, "note": n.get("note", "")})
json.dump({"claims": claims}, open(os.path.join(root, "MANIFEST.json"), "w"), indent=1, ensure_ascii=False)
print({s: sum(c["status"] == s for c in claims) for s in ("proved", "partial", "not_applicable")})
