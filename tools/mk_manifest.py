#!/usr/bin/env python3
"""Regenerate MANIFEST.json from the theorems in lean/Verif and tools/status.json.

status.json maps a property id to [status, note].  Every theorem whose name
starts with the property id (Cnn_) is listed under that property.
"""
import json, pathlib, re
root = pathlib.Path(__file__).resolve().parent.parent
status = json.loads((root / "tools/status.json").read_text())
thms = {}
for f in sorted((root / "lean/Verif").rglob("*.lean")):
    ns = []
    for line in f.read_text().splitlines():
        m = re.match(r"namespace (\S+)", line)
        if m:
            ns.append(m.group(1))
        m = re.match(r"end (\S+)", line)
        if m and ns and ns[-1] == m.group(1):
            ns.pop()
        m = re.match(r"(?:protected |private )?theorem ((C\d\d+)_\S+)", line)
        if m:
            thms.setdefault(m.group(2), []).append(".".join(ns + [m.group(1)]))
claims = []
for line in (root / "properties.jsonl").read_text().splitlines():
    pid = json.loads(line)["id"]
    st, note = status.get(pid, [None, ""])
    if st is None:
        if pid in thms:
            print("no status for", pid)
        continue
    claims.append({"property": pid, "status": st, "theorems": thms.get(pid, []), "note": note})
    if st != "not_applicable" and pid not in thms:
        print("no theorem for", pid)
(root / "MANIFEST.json").write_text(json.dumps({"claims": claims}, indent=1) + "\n")
