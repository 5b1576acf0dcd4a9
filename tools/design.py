#!/usr/bin/env python3
"""Regenerate the section *Status* of DESIGN.md from MANIFEST.json and properties.jsonl."""
import json, re, glob
P = {}
for l in open("/verif/properties.jsonl"):
    r = json.loads(l); P[r["id"]] = r
C = {c["property"]: c for c in json.load(open("/verif/MANIFEST.json"))["claims"]}
where = {}
for f in glob.glob("/verif/lean/Verif/**/*.lean", recursive=True):
    ns = []
    for l in open(f):
        m = re.match(r"namespace (\S+)", l)
        if m: ns.append(m.group(1)); continue
        m = re.match(r"end (\S+)", l)
        if m and ns and m.group(1) == ns[-1]: ns.pop(); continue
        m = re.match(r"(?:private |protected |omit .* in )?theorem (\S+)", l)
        if m: where[".".join(ns + [m.group(1)])] = f.replace("/verif/lean/Verif/", "")
out = ["<!-- STATUS -->", "## Status", "",
       "Generated from `MANIFEST.json` by `tools/design.py`. `proved`: the statement of `properties.jsonl` holds in the model for all inputs. "
       "`partial`: part of the statement is proved (theorems with suffix `_partial` name what is missing), or the code violates part of it and the "
       "negation is proved on a witness (`…_counterexample`).", "",
       "| id | status | property | modules | remarks |", "|----|--------|----------|---------|---------|"]
for i in sorted(P, key=lambda s: int(s[1:])):
    c = C.get(i)
    mods = sorted({where.get(t, "?") for t in c["theorems"]}) if c else []
    out.append("| %s | %s | %s | %s | %s |" % (i, c["status"] if c else "no claim", P[i]["title"], ", ".join("`%s`" % m for m in mods), (c["note"] if c else "").replace("|", "/")))
out += ["", "### Places where the code and the property disagree", "",
        "Each line is a theorem whose statement exhibits inputs on which the modelled code does not satisfy the property.", ""]
for i in sorted(P, key=lambda s: int(s[1:])):
    c = C.get(i)
    if not c: continue
    ce = [t for t in c["theorems"] if "counterexample" in t]
    if ce: out.append("* %s: %s" % (i, ", ".join("`%s`" % t.replace("Verif.", "") for t in ce)))
out += ["<!-- /STATUS -->"]
t = open("/verif/DESIGN.md").read()
s = "\n".join(out)
if "<!-- STATUS -->" in t: t = t[:t.index("<!-- STATUS -->")] + s + t[t.index("<!-- /STATUS -->") + len("<!-- /STATUS -->"):]
else: t = t.rstrip() + "\n\n" + s + "\n"
open("/verif/DESIGN.md", "w").write(t)
