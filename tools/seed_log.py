#!/usr/bin/env python3
"""Turn results of mutate.py into lines of seeded/LOG.jsonl.

usage: seed_log.py RESULT.jsonl...

`theorems_failed` lists the theorems of the claims that the edit was meant to break and that can no longer be proved;
`proofs_failed` the lemmas and theorems whose own proofs stopped working, in any module. `other_claims` names further
properties with theorems that rest on such a proof. A line in tools/tightened.json (name -> theorems) fills `tightened`."""
import json, pathlib, sys
root = pathlib.Path(__file__).resolve().parent.parent
tp = root / "tools" / "tightened.json"
tight = json.loads(tp.read_text()) if tp.exists() else {}
res = {}
for f in sys.argv[1:]:
    for l in open(f):
        o = json.loads(l)
        if o.get("problem"):
            continue
        res[o["name"]] = o
lines = []
for n, o in res.items():
    br = o["broken"]
    lines.append({"name": n, "definition": o["definition"], "file": "lean/" + o["file"], "edit": o["edit"], "claim": o["claim"],
        "claims_expected": o["expect"],
        "theorems_failed": sorted({t for c in o["expect"] for t in br.get(c, [])}),
        "survived": o["survived"] or {},
        "proofs_failed": o["failed_proofs"],
        "other_claims": sorted(c for c in br if c not in o["expect"]),
        "tightened": tight.get(n, [])})
(root / "seeded").mkdir(exist_ok=True)
(root / "seeded" / "LOG.jsonl").write_text("".join(json.dumps(x, ensure_ascii=False) + "\n" for x in lines))
print(len(lines))
