#!/usr/bin/env python3
"""Writes MANIFEST.json: collects the theorems Cnn_* of lean/Verif/Props and the statuses/notes below."""
import json, re, glob, os
root = os.path.dirname(os.path.dirname(os.path.abspath(__file__)))
STATUS = json.load(open(os.path.join(root, "tools", "status.json")))
thms = {}
for f in sorted(glob.glob(root + "/lean/Verif/Props/*.lean")):
    src = re.sub(r"/-.*?-/", "", open(f).read(), flags=re.S)
    ns = "Dupi.Props"
    for m in re.finditer(r"^theorem\s+(C\d\d\d?)_(\S+)", src, flags=re.M):
        thms.setdefault(m.group(1), []).append(f"{ns}.{m.group(1)}_{m.group(2)}")
claims = []
for line in open(root + "/properties.jsonl"):
    pid = json.loads(line)["id"]
    if pid not in STATUS: continue
    st, note = STATUS[pid]
    claims.append({"property": pid, "status": st, "theorems": thms.get(pid, []), "note": note})
json.dump({"claims": claims}, open(root + "/MANIFEST.json", "w"), indent=1, ensure_ascii=False)
for c in claims:
    if not c["theorems"] and c["status"] != "not_applicable": print("no theorems:", c["property"])
for p in thms:
    if p not in STATUS: print("no status:", p)
