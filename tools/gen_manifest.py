#!/usr/bin/env python3
"""Write MANIFEST.json. Theorem lists are collected from the sources: every theorem whose name starts with the property
id and an underscore. Status and note are given here."""
import json, re, pathlib, sys
root = pathlib.Path(__file__).resolve().parent.parent
names = {}
for f in sorted((root / "lean" / "Verif").rglob("*.lean")):
    ns = []
    for line in f.read_text().splitlines():
        m = re.match(r"namespace (\S+)", line)
        if m: ns.append(m.group(1)); continue
        m = re.match(r"end (\S+)", line)
        if m and ns and ns[-1] == m.group(1): ns.pop(); continue
        m = re.match(r"(?:private |protected )?theorem ((C\d\d+)_\S+)", line)
        if m: names.setdefault(m.group(2), []).append(".".join(ns + [m.group(1)]))
STATUS = json.loads((root / "tools" / "status.json").read_text())
ids = [json.loads(l)["id"] for l in (root / "properties.jsonl").read_text().splitlines() if l.strip()]
claims = []
for i in ids:
    if i not in STATUS:
        print("no status for", i, file=sys.stderr)
        continue
    st = STATUS[i]
    claims.append({"property": i, "status": st["status"], "theorems": names.get(i, []), "note": st["note"]})
(root / "MANIFEST.json").write_text(json.dumps({"claims": claims}, indent=1, ensure_ascii=False) + "\n")
