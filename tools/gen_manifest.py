#!/usr/bin/env python3
"""Writes MANIFEST.json: the theorems of a property are those named `Cnn_...` under lean/Verif/Props;
status and note come from tools/status.json."""
import json, os, re, glob
here = os.path.dirname(os.path.abspath(__file__))
root = os.path.join(here, "..")
status = json.load(open(os.path.join(here, "status.json")))
thms = {}
for f in sorted(glob.glob(os.path.join(root, "lean/Verif/Props/**/*.lean"), recursive=True)):
    ns = []
    for line in open(f):
        m = re.match(r"namespace\s+(\S+)", line)
        if m: ns.append(m.group(1))
        m = re.match(r"end\s+(\S+)", line)
        if m and ns and ns[-1] == m.group(1): ns.pop()
        m = re.match(r"(?:@\[[^\]]*\]\s*)?theorem\s+(C\d\d+)_(\S+)", line)
        if m:
            thms.setdefault(m.group(1), []).append(".".join(ns + [m.group(1) + "_" + m.group(2)]))
claims = []
for line in open(os.path.join(root, "properties.jsonl")):
    i = json.loads(line)["id"]
    t = thms.get(i, [])
    s = status.get(i, {})
    st = s.get("status", "proved")
    if not t:
        st = "not_applicable" if s.get("status") == "not_applicable" else "partial"
        s = {"note": s.get("note", "not modelled yet")}
    claims.append(dict(property=i, status=st, theorems=t, note=s.get("note", "")))
json.dump({"claims": claims}, open(os.path.join(root, "MANIFEST.json"), "w"), indent=1)
print({k: sum(c["status"] == k for c in claims) for k in ("proved", "partial", "not_applicable")},
      [c["property"] for c in claims if not c["theorems"]])
