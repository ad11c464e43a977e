#!/usr/bin/env python3
"""Write MANIFEST.json from the table below, checking that every theorem named exists in lean/Verif/Props."""
import json, pathlib, re, sys

ROOT = pathlib.Path(__file__).resolve().parent.parent
T = []
def claim(prop, status, thms, note=""):
    T.append(dict(property=prop, status=status, theorems=["Verif." + t for t in thms.split()], note=note))

exec((ROOT / "tools" / "claims.py").read_text())

names = set()
for f in (ROOT / "lean" / "Verif").rglob("*.lean"):
    ns = []
    for line in f.read_text().splitlines():
        m = re.match(r"\s*namespace (\S+)", line)
        if m: ns.append(m.group(1)); continue
        m = re.match(r"\s*end (\S+)", line)
        if m and ns and ns[-1] == m.group(1): ns.pop(); continue
        m = re.match(r"\s*(?:@\[[^\]]*\]\s*)?(?:private |protected )?theorem (\S+)", line)
        if m: names.add(".".join(ns + [m.group(1)]))
bad = [t for c in T for t in c["theorems"] if t not in names]
if bad:
    sys.exit("missing theorems: %s" % bad)
lines = ",\n ".join(json.dumps(c) for c in T)
(ROOT / "MANIFEST.json").write_text('{"claims": [\n ' + lines + "\n]}\n")
cited = {t for c in T for t in c["theorems"]}
un = sorted(n for n in names if re.match(r"Verif\.C\d\d_", n) and n not in cited)
print(len(T), "claims; property theorems not cited:", un)
