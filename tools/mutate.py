#!/usr/bin/env python3
"""Try wrong programs: for each edit of a definition listed in a file of mutations, edit a scratch copy of the Lake project, rebuild,
replace the declarations that fail by `sorry` (in the copy only) until the rest builds, and list the theorems of the manifest that have lost their
proof (they depend on `sorryAx`).  One JSON line per attempt is appended to seeded/LOG.jsonl.
usage: mutate.py mutations.py [first [last]]"""
import sys, os, re, json, glob, subprocess, shutil
SRC = "/verif/lean"; BASE = "/tmp/mut/base"; DST = "/tmp/mut/lean"; LOG = "/verif/seeded/LOG.jsonl"
START = re.compile(r"^(?:@\[[^\]]*\]\s*)?(?:private |protected |noncomputable |open [A-Za-z .]+ in\s+)*(theorem|lemma|example|instance|def|structure|inductive|abbrev)\b\s*([^\s:({\[]*)")
STOP = re.compile(r"^(?:/--|/-!|end\b|namespace\b|section\b|open\b|variable\b|mutual\b|set_option\b|scoped\b|omit\b|@\[)")

def decls(text):
    """(first line, last line + 1, kind, name)"""
    lines = text.split("\n"); out = []; cur = None; depth = 0
    for i, l in enumerate(lines):
        m = START.match(l)
        if m:
            if cur: out.append((cur[0], i, cur[1], cur[2]))
            cur = (i, m.group(1), m.group(2))
        elif STOP.match(l) and cur:
            out.append((cur[0], i, cur[1], cur[2])); cur = None
    if cur: out.append((cur[0], len(lines), cur[1], cur[2]))
    return lines, out

def strip_proof(s):
    depth = 0; i = 0
    while i < len(s):
        c = s[i]
        if c in "([{⟨": depth += 1
        elif c in ")]}⟩": depth -= 1
        elif s.startswith(":=", i) and depth == 0:
            ls = s.rfind("\n", 0, i) + 1
            head = s[ls:i]
            k = max(head.rfind(";"), head.rfind("let "))
            if not re.search(r"(^|[;∧→,\s])(let|have)\s+[^;]*$", head):
                return s[:i] + ":= by sorry\n\n"
        i += 1
    return None

def strip_all(p, cond):
    t = open(p).read(); lines, ds = decls(t); names = []
    for d in sorted(ds, reverse=True):
        body = "\n".join(lines[d[0]:d[1]])
        if d[2] in ("theorem", "lemma", "example") and cond(d, body) and not body.rstrip().endswith("sorry"):
            nb = "" if d[2] == "example" else strip_proof(body)
            if nb is not None:
                if d[2] == "example":
                    k = d[0]
                    while k > 0 and lines[k - 1].strip() and not START.match(lines[k - 1]) and "/--" not in lines[k - 1]: k -= 1
                    if k > 0 and "/--" in lines[k - 1]:
                        k -= 1
                        for z in range(k, d[0]): lines[z] = ""
                        while k > 0 and re.match(r"(open|set_option)\b.*\bin$", lines[k - 1].rstrip()): k -= 1; lines[k] = ""
                lines[d[0]:d[1]] = nb.split("\n"); names.append(d[3])
    open(p, "w").write("\n".join(lines))
    return names

def build():
    p = subprocess.run("timeout 900 lake build", shell=True, cwd=DST, capture_output=True, text=True)
    errs = {}
    for m in re.finditer(r"^error: (\S+?\.lean):(\d+):(\d+): (.*)$", p.stdout + p.stderr, re.M):
        errs.setdefault(m.group(1), []).append((int(m.group(2)), m.group(4)))
    return p.returncode, errs, p.stdout + p.stderr

def theorems():
    M = json.load(open("/verif/MANIFEST.json")); r = []
    for c in M["claims"]:
        for t in c["theorems"]:
            if t not in r: r.append(t)
    return r

def attempt(mu):
    f = os.path.join(DST, mu["file"])
    shutil.rmtree(DST, ignore_errors=True)
    shutil.copytree(BASE, DST)
    text = open(f).read()
    if text.count(mu["old"]) < 1: return {"error": "pattern not found"}
    n = mu.get("nth", 0); pos = -1
    for _ in range(n + 1): pos = text.index(mu["old"], pos + 1)
    text = text[:pos] + mu["new"] + text[pos + len(mu["old"]):]
    open(f, "w").write(text)
    broken = []
    for it in range(25):
        rc, errs, out = build()
        if rc == 0: break
        dead = [x for x in re.findall(r"Building (\S+)", out) if x in re.findall(r"^- (\S+)$", out, re.M) and
                x.replace(".", "/") + ".lean" not in errs]
        again = False
        for x in dead:
            names = strip_all(os.path.join(DST, x.replace(".", "/") + ".lean"), lambda d, b: "decide" in b)
            if names: again = True; broken += names
        if again: continue
        if not errs: return {"error": "build failed without position: " + out[-600:]}
        changed = False
        for fn, es in errs.items():
            p = os.path.join(DST, fn); t = open(p).read(); lines, ds = decls(t)
            todo = set()
            for (ln, msg) in es:
                for d in ds:
                    if d[0] <= ln - 1 < d[1]: todo.add(d)
            for d in sorted(todo, reverse=True):
                body = "\n".join(lines[d[0]:d[1]])
                if d[2] not in ("theorem", "lemma", "example", "instance"):
                    return {"error": "definition %s does not compile: %s" % (d[3], es[:2])}
                if body.rstrip().endswith("sorry"): return {"error": "statement %s does not compile: %s" % (d[3], [e for e in es][:2])}
                nb = strip_proof(body)
                if nb is None:
                    return {"error": "cannot strip %s" % d[3]}
                lines[d[0]:d[1]] = nb.split("\n")
                changed = True
                broken.append(d[3] if d[3] else "example " + fn.replace("Verif/", "") + ":" + str(d[0] + 1))
            open(p, "w").write("\n".join(lines))
        if not changed: return {"error": "no declaration for %s" % errs}
    else: return {"error": "too many iterations"}
    T = theorems()
    chk = os.path.join(DST, "Chk.lean")
    open(chk, "w").write("import Verif\n" + "\n".join("#print axioms " + t for t in T))
    p = subprocess.run(["lake", "env", "lean", "Chk.lean"], cwd=DST, capture_output=True, text=True)
    failed = re.findall(r"'(\S+)' depends on axioms: \[[^\]]*sorryAx", p.stdout.replace("\n", " "))
    return {"broken": broken, "failed": failed}

def main():
    ns = {}; exec(open(sys.argv[1]).read(), ns); L = ns["M"]
    a = int(sys.argv[2]) if len(sys.argv) > 2 else 0; b = int(sys.argv[3]) if len(sys.argv) > 3 else len(L)
    os.makedirs("/tmp/mut", exist_ok=True)
    shutil.rmtree(BASE, ignore_errors=True)
    shutil.copytree(SRC, BASE)
    for x in glob.glob(BASE + "/Verif/**/*.lean", recursive=True): strip_all(x, lambda d, b: d[2] == "example")
    p = subprocess.run(["lake", "build"], cwd=BASE, capture_output=True, text=True)
    if p.returncode: sys.exit("the unmodified project does not build")
    for k in range(a, min(b, len(L))):
        mu = L[k]; r = attempt(mu)
        short = [t.replace("Verif.", "") for t in r.get("failed", [])]
        if "error" in r:
            print(k, mu["def"], "ERROR", r["error"], flush=True); continue
        exp = mu["props"].split()
        hit = [t for t in short if any(re.search(r"(^|\.)" + e + r"(_|$)", t) for e in exp)]
        print(k, mu["def"], "broken", len(r["broken"]), "failed", len(short), "KILLED" if hit else ("killed-other" if short else "SURVIVED"), flush=True)
        rec = {"definition": mu["def"], "file": mu["file"], "edit": mu["old"].strip() + "  ==>  " + mu["new"].strip(), "claim_broken": mu["claim"],
               "properties": exp, "theorems_failed": short, "claim_theorems_failed": hit,
               "lemmas_failed": len(r["broken"]), "theorems_tightened": mu.get("tightened", [])}
        with open(LOG, "a") as f: f.write(json.dumps(rec, ensure_ascii=False) + "\n")
if __name__ == "__main__": main()
