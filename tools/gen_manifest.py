#!/usr/bin/env python3
"""Writes MANIFEST.json. Claims are listed in CLAIMS; every theorem name is checked to occur in a
Props module and every `theorem Cnn_...` in Props must be claimed."""
import json, re, glob, os
ROOT = os.path.dirname(os.path.dirname(os.path.abspath(__file__)))
STATUS = {}
def s(pid, status, note=""): STATUS[pid] = (status, note)
exec(open(os.path.join(ROOT, "tools", "claims.py")).read())
names = {}
for f in sorted(glob.glob(ROOT + "/lean/Verif/Props/*.lean")):
    src = open(f).read()
    stack = []
    for m in re.finditer(r"^(?:(namespace|section)\s*([\w.]*)|(end)\b.*|theorem\s+((C\d\d)_\w+))", src, re.M):
        if m.group(1): stack.append(m.group(2) if m.group(1) == "namespace" else "")
        elif m.group(3): stack.pop()
        else: names.setdefault(m.group(5), []).append(".".join([x for x in stack if x] + [m.group(4)]))
claims = []
props = [json.loads(l) for l in open(ROOT + "/properties.jsonl")]
for p in props:
    pid = p["id"]
    if pid in STATUS:
        st, note = STATUS[pid]
        if pid not in names and st != "not_applicable":
            print("NO THEOREMS FOR", pid); continue
        claims.append({"property": pid, "status": st, "theorems": names.get(pid, []), "note": note})
    elif pid in names:
        print("UNCLAIMED", pid, names[pid])
    else:
        print("open", pid)
json.dump({"claims": claims}, open(ROOT + "/MANIFEST.json", "w"), indent=1)
print(len(claims), "claims")
