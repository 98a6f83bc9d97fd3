#!/usr/bin/env python3
"""Write MANIFEST.json: collect the theorems named Cnn_* from the Lean sources.

A property is "partial" when one of its theorems has the suffix _partial or
_violated, unless STATUS says otherwise, and "proved" otherwise."""
import json, os, re, sys
root = os.path.join(os.path.dirname(os.path.abspath(__file__)), "..")
notes = {}
status = {}
np = os.path.join(root, "tools", "notes.json")
if os.path.exists(np):
    d = json.load(open(np))
    notes, status = d.get("notes", {}), d.get("status", {})
props = [json.loads(l)["id"] for l in open(os.path.join(root, "properties.jsonl"))]
thms = {}
for dp, dn, fn in os.walk(os.path.join(root, "lean", "Verif")):
    dn.sort()
    for f in sorted(fn):
        if not f.endswith(".lean"):
            continue
        ns = []
        for line in open(os.path.join(dp, f)):
            m = re.match(r"namespace\s+(\S+)", line)
            if m:
                ns.append(m.group(1)); continue
            m = re.match(r"section\b", line)
            if m:
                ns.append(None); continue
            m = re.match(r"end\b", line)
            if m and ns:
                ns.pop(); continue
            m = re.match(r"(?:@\[[^\]]*\]\s*)?theorem\s+((C\d\d+)_\S+)", line)
            if m:
                full = ".".join([n for n in ns if n] + [m.group(1)])
                thms.setdefault(m.group(2), []).append(full)
claims = []
for p in props:
    t = thms.get(p, [])
    if not t and p not in status:
        print("no theorem for", p, file=sys.stderr)
        continue
    s = status.get(p)
    if s is None:
        s = "partial" if any(re.search(r"_(partial|violated)$", x) for x in t) else "proved"
    claims.append({"property": p, "status": s, "theorems": t, "note": notes.get(p, "")})
for p in sorted(set(thms) - set(props)):
    print("theorems for unknown property", p, thms[p], file=sys.stderr)
json.dump({"claims": claims}, open(os.path.join(root, "MANIFEST.json"), "w"), indent=1, ensure_ascii=False)
print(len(claims), "claims,", sum(c["status"] == "proved" for c in claims), "proved")
