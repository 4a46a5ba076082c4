#!/usr/bin/env python3
"""Rebuild MANIFEST.json from the theorem names under lean/Verif/Props and the notes in tools/notes.json.

A theorem named Cnn_... belongs to property Cnn. A property with a theorem whose name ends in `_partial`,
`_counterexample` or `_fails` is partial unless notes.json says otherwise.
"""
import json, re, pathlib
root = pathlib.Path(__file__).resolve().parent.parent
notes = json.loads((root / "tools/notes.json").read_text())
thms = {}
for f in sorted((root / "lean/Verif/Props").rglob("*.lean")):
    ns = []
    for line in f.read_text().splitlines():
        if m := re.match(r"namespace\s+(\S+)", line):
            ns.append(m[1])
        elif m := re.match(r"end\s+(\S+)", line):
            if ns and ns[-1] == m[1]:
                ns.pop()
        elif m := re.match(r"(?:@\[[^\]]*\]\s*)?theorem\s+(C(\d\d)_[^\s:({\[]+)", line):
            thms.setdefault("C" + m[2], []).append(".".join(ns + [m[1]]))
claims = []
for line in (root / "properties.jsonl").read_text().splitlines():
    pid = json.loads(line)["id"]
    names = thms.get(pid, [])
    note = notes.get(pid, {})
    weak = any(re.search(r"(_partial|_counterexample|_fails)$", n) for n in names)
    status = note.get("status") or ("partial" if weak else "proved")
    if not names:
        if note.get("status") != "not_applicable":
            continue
    claims.append({"property": pid, "status": status, "theorems": names, "note": note.get("note", "")})
(root / "MANIFEST.json").write_text(json.dumps({"claims": claims}, indent=1) + "\n")
print(len(claims), "claims;", sum(len(c["theorems"]) for c in claims), "theorems")
for c in claims:
    if not c["note"]:
        print("no note:", c["property"])
