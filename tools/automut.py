#!/usr/bin/env python3
"""Systematic wrong programs: generate small edits (boundary, swapped operator, dropped update, swapped component ...) of the definitions whose
documentation cites a source file of the repository, and try each with mutate.py's `attempt`.  Killed edits are appended to seeded/LOG.jsonl with
the titles of the properties whose theorems failed; survivors are logged too ("survived": true), printed, and written to /tmp/mut/survivors.jsonl for review by hand.
usage: automut.py [-n PER_MODULE] [-s SEED] module-path-regex ..."""
import sys, os, re, json, glob, random, hashlib, importlib.util
sys.argv_saved = sys.argv
src = open("/verif/tools/mutate.py").read().rsplit("\nmain()", 1)[0]
exec(src)
CITE = re.compile(r"\.(cc|hh|hxx)\b")
OPS = [(" < ", " ≤ "), (" ≤ ", " < "), (" + 1", ""), (" - 1", ""), (" + ", " - "), (" - ", " + "), (" * ", " + "), (" && ", " || "), (" || ", " && "),
       ("true", "false"), ("false", "true"), ("min ", "max "), ("max ", "min "), (" ∧ ", " ∨ "), (" ∨ ", " ∧ "), (".1", ".2"), (".2", ".1"),
       (".fst", ".snd"), (".snd", ".fst"), (" = ", " ≠ "), (" == ", " != "), (" != ", " == "), (" ≠ ", " = "), ("!", ""), ("-", ""), (".reverse", ""),
       ("filter", "dropWhile"), (" 0 ", " 1 "), (" 1 ", " 0 "), ("foldl", "foldr"), ("any ", "all "), ("all ", "any "), (".any", ".all"), (".all", ".any"),
       (" / 2", ""), (" > ", " ≥ "), (" ≥ ", " > "), ("take ", "drop "), ("drop ", "take "), (".length", ".length + 1"), ("head?", "getLast?"), ("getLast?", "head?")]

def cited(lines, d):
    k = d[0] - 1; doc = []
    while k >= 0 and lines[k].strip() != "" and "/--" not in lines[k]:
        doc.append(lines[k]); k -= 1
    if k >= 0: doc.append(lines[k])
    return bool(CITE.search("\n".join(doc)))

def muts(f, rng):
    t = open(f).read(); lines, ds = decls(t); res = []
    for d in ds:
        if d[2] != "def" or not cited(lines, d): continue
        body = "\n".join(lines[d[0]:d[1]])
        k = body.find(":=")
        m = re.search(r"\n\s*\| ", body)
        if m and (k < 0 or m.start() < k): k = m.start()
        if k < 0: continue
        # strip comments positions
        cm = [(x.start(), x.end()) for x in re.finditer(r"--.*|/-.*?-/", body, re.S if False else 0)]
        incm = lambda p: any(a <= p < b for a, b in cm)
        off = sum(len(l) + 1 for l in lines[:d[0]]); mine = []
        for o, n in OPS:
            p = body.find(o, k + 2)
            while p >= 0:
                if not incm(p):
                    if o in (" - ", " + ") and body[p:p + 4] in (" + 1", " - 1") and n != "" and (o, n) in ((" + ", " - "), (" - ", " + ")): pass
                    elif o == "-" and (body[p - 1:p] in " " and body[p + 1:p + 2] == " " or body[p + 1:p + 2] in "->" or body[p - 1:p] in "-/"): pass
                    elif o == "!" and body[p + 1:p + 2] == "=": pass
                    else: mine.append((off + p, o, n, d[3]))
                p = body.find(o, p + 1)
        # if-then-else inversion
        for x in re.finditer(r"\bif (?!let|h :|h:|hh)([^\n]*?) then", body):
            if x.start() > k and not incm(x.start()): mine.append((off + x.start(1), x.group(1), "¬ (" + x.group(1) + ")", d[3]))
        # dropped updates
        for x in re.finditer(r"\{ *([\w.]+) with ([^{}]*)\}", body):
            parts = x.group(2).split(",")
            if x.start() < k or incm(x.start()): continue
            for i in range(len(parts)):
                rest = parts[:i] + parts[i + 1:]
                new = "{ %s with %s }" % (x.group(1), ",".join(rest).strip()) if rest else x.group(1)
                if all(":=" in q for q in rest): mine.append((off + x.start(), x.group(0), new, d[3]))
        # concatenations
        for x in re.finditer(r"(\S+) \+\+ (\S+)", body):
            if x.start() > k and not incm(x.start()): mine.append((off + x.start(), x.group(0), x.group(1), d[3]))
        rng.shuffle(mine)
        res.append(mine)
    # round robin over the definitions
    out = []; i = 0
    while any(res) and i < 40:
        order = list(range(len(res))); rng.shuffle(order)
        for j in order:
            if res[j]: out.append(res[j].pop())
        i += 1
    return t, out

def automain():
    args = sys.argv[1:]; per = 8; seed = 0
    while args and args[0].startswith("-"):
        if args[0] == "-n": per = int(args[1])
        if args[0] == "-s": seed = int(args[1])
        args = args[2:]
    titles = {json.loads(l)["id"]: json.loads(l)["title"] for l in open("/verif/properties.jsonl")}
    done = set()
    for p in (LOG, "/tmp/mut/survivors.jsonl", "/tmp/mut/invalid.jsonl"):
        if os.path.exists(p):
            for l in open(p):
                r = json.loads(l); done.add((r["file"], r.get("line"), r["edit"]))
    os.makedirs("/tmp/mut", exist_ok=True)
    shutil.rmtree(BASE, ignore_errors=True); shutil.copytree(SRC, BASE)
    for x in glob.glob(BASE + "/Verif/**/*.lean", recursive=True): strip_all(x, lambda d, b: d[2] == "example")
    p = subprocess.run(["lake", "build"], cwd=BASE, capture_output=True, text=True)
    if p.returncode: sys.exit("the unmodified project does not build")
    files = sorted(x for x in glob.glob(BASE + "/Verif/**/*.lean", recursive=True) if any(re.search(a, x) for a in args))
    for f in files:
        rel = os.path.relpath(f, BASE); rng = random.Random(rel + str(seed))
        t, L = muts(f, rng); ok = 0; used = {}
        for (pos, o, n, name) in L:
            if ok >= per: break
            if used.get(name, 0) >= 3: continue
            ls = t.rfind("\n", 0, pos) + 1; le = t.find("\n", pos + len(o)); le = len(t) if le < 0 else le
            newt = t[:pos] + n + t[pos + len(o):]
            oldl = t[ls:le]; newl = newt[ls:le + len(n) - len(o)]
            edit = oldl.strip() + "  ==>  " + newl.strip()
            occ = t[:ls].count(oldl)
            line = t[:pos].count("\n") + 1
            if (rel, line, edit) in done: ok += 1; continue
            mu = {"file": rel, "def": name, "old": oldl, "new": newl, "nth": occ, "claim": "", "props": ""}
            r = attempt(mu)
            if "error" in r:
                with open("/tmp/mut/invalid.jsonl", "a") as g: g.write(json.dumps({"file": rel, "line": line, "edit": edit, "e": r["error"][:300]}) + "\n")
                if not r["error"].startswith("definition"): print("ERROR", rel, name, edit, r["error"][:200], flush=True)
                continue
            ok += 1; used[name] = used.get(name, 0) + 1
            short = [x.replace("Verif.", "") for x in r["failed"]]
            ids = sorted(set(re.findall(r"\bC\d\d+", " ".join(x.rsplit(".", 1)[-1].replace("_", " ") for x in short))))
            if not short:
                print("SURVIVED", rel, name, "|", edit, flush=True)
                with open("/tmp/mut/survivors.jsonl", "a") as g: g.write(json.dumps({"file": rel, "line": line, "definition": name, "edit": edit, "broken": r["broken"]}, ensure_ascii=False) + "\n")
                with open(LOG, "a") as g: g.write(json.dumps({"definition": name, "file": rel, "line": line, "edit": edit, "claim_broken": "", "properties": [], "theorems_failed": [], "lemmas_failed": len(r["broken"]), "theorems_tightened": [], "generated": True, "survived": True}, ensure_ascii=False) + "\n")
                continue
            print("killed", rel, name, len(short), flush=True)
            rec = {"definition": name, "file": rel, "line": line, "edit": edit, "claim_broken": "; ".join(i + " " + titles.get(i, "") for i in ids[:4]), "properties": ids,
                   "theorems_failed": short, "lemmas_failed": len(r["broken"]), "theorems_tightened": [], "generated": True}
            with open(LOG, "a") as g: g.write(json.dumps(rec, ensure_ascii=False) + "\n")
automain()
