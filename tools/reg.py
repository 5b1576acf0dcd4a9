# helper: reg(props=[...], claims=[...], rows=[...], imports=[...])
def reg(props, claims, rows, imports):
    p='/verif/tools/props.py'; s=open(p).read()
    k='with open("/verif/properties.jsonl"'
    s=s.replace(k, "".join(props)+"\n"+k); open(p,'w').write(s)
    p='/verif/tools/manifest.py'; s=open(p).read()
    s=s.replace("#NEXT", "\n".join(claims)+"\n#NEXT"); open(p,'w').write(s)
    p='/verif/DESIGN.md'; L=open(p).read().split("\n")
    first=[i for i,l in enumerate(L) if l.startswith("| C01 |")][0]
    i=first
    while L[i].startswith("| C"): i+=1
    L[i:i]=rows; open(p,'w').write("\n".join(L))
    p='/verif/lean/Verif.lean'; s=open(p).read()
    if not s.endswith("\n"): s+="\n"
    for m in imports:
        if "import "+m+"\n" not in s: s+="import "+m+"\n"
    open(p,'w').write(s)
