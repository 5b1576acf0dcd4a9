#!/usr/bin/env python3
"""Replay the edits that survived automut.py (/tmp/mut/survivors.jsonl) against the present theorems.  Those that are killed now are logged with the theorems that were
tightened, given on the command line: replay.py definition=theorem[,theorem] ..."""
import sys, os, re, json, glob
src = open("/verif/tools/mutate.py").read().rsplit("\nmain()", 1)[0]
exec(src)
want = dict(a.split("=") for a in sys.argv[1:])
titles = {json.loads(l)["id"]: json.loads(l)["title"] for l in open("/verif/properties.jsonl")}
shutil.rmtree(BASE, ignore_errors=True); shutil.copytree(SRC, BASE)
for x in glob.glob(BASE + "/Verif/**/*.lean", recursive=True): strip_all(x, lambda d, b: d[2] == "example")
p = subprocess.run(["lake", "build"], cwd=BASE, capture_output=True, text=True)
if p.returncode: sys.exit("the unmodified project does not build")
logged = {(r["file"], r["edit"]) for r in map(json.loads, open(LOG))}
for l in open("/tmp/mut/survivors.jsonl"):
    s = json.loads(l)
    if s["definition"] not in want or (s["file"], s["edit"]) in logged: continue
    old, new = s["edit"].split("  ==>  ")
    if "\n" in old: print("skipped", s["definition"]); continue
    r = attempt({"file": s["file"], "def": s["definition"], "old": old, "new": new, "nth": 0, "claim": "", "props": ""})
    if "error" in r: print("ERROR", s["definition"], r["error"][:200], flush=True); continue
    short = [x.replace("Verif.", "") for x in r["failed"]]
    print("killed" if short else "SURVIVED", s["definition"], short, flush=True)
    if not short: continue
    ids = sorted(set(re.findall(r"\bC\d\d+", " ".join(x.rsplit(".", 1)[-1].replace("_", " ") for x in short))))
    rec = {"definition": s["definition"], "file": s["file"], "edit": s["edit"], "claim_broken": "; ".join(i + " " + titles.get(i, "") for i in ids[:4]), "properties": ids,
           "theorems_failed": short, "lemmas_failed": len(r["broken"]), "theorems_tightened": want[s["definition"]].split(","), "generated": True, "note": "survived at first; no theorem failed before the ones listed as tightened were strengthened or added"}
    with open(LOG, "a") as g: g.write(json.dumps(rec, ensure_ascii=False) + "\n")
