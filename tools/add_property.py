#!/usr/bin/env python3
"""Append a property to properties.jsonl and its claim to tools/gen_manifest.py, and regenerate MANIFEST.json.
stdin: a JSON object with the fields of properties.jsonl plus status, theorems, note."""
import json, sys, subprocess
for p in json.load(sys.stdin):
    st, th, note = p.pop("status", "proved"), p.pop("theorems"), p.pop("note", "")
    with open("/verif/properties.jsonl", "a") as f:
        f.write(json.dumps(p, ensure_ascii=False) + "\n")
    g = "/verif/tools/gen_manifest.py"
    s = open(g).read()
    i = s.rindex("}", 0, s.index('N="Miniserde."'))
    s = s[:i] + f' "{p["id"]}": ("{st}", {json.dumps(th)}, {json.dumps(note)}),\n' + s[i:]
    open(g, "w").write(s)
subprocess.check_call(["python3", "/verif/tools/gen_manifest.py"])
