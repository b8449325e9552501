#!/usr/bin/env python3
"""Regenerates MANIFEST.json: theorem names are collected from lean/Verif/Props by their C<nn>_ prefix."""
import re,glob,json,os
root=os.path.join(os.path.dirname(os.path.abspath(__file__)),"..")
thms={}
for f in sorted(glob.glob(root+"/lean/Verif/Props/*.lean")):
    for m in re.finditer(r"^theorem\s+(C\d\d)(_\w+)",open(f).read(),re.M):
        thms.setdefault(m.group(1),[]).append("Parsel."+m.group(1)+m.group(2))
exec(open(root+"/tools/notes.py").read())
claims=[]
for l in open(root+"/properties.jsonl"):
    d=json.loads(l); c=d["id"]
    t=thms.get(c,[])
    st,note=NOTES.get(c,(None,""))
    if st is None: st="proved" if t else "partial"
    if not t and st!="not_applicable": note=(note+" " if note else "")+"No theorem yet."
    claims.append({"property":c,"status":st,"theorems":t,"note":note})
json.dump({"claims":claims},open(root+"/MANIFEST.json","w"),indent=1,ensure_ascii=False)
print({s:sum(1 for c in claims if c["status"]==s) for s in ("proved","partial","not_applicable")}, [c["property"] for c in claims if not c["theorems"]])
