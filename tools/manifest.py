#!/usr/bin/env python3
"""manifest.py [--add] PROP STATUS thm,thm,... [note] : add or replace one claim of MANIFEST.json"""
import json,sys
f='/verif/MANIFEST.json'
M=json.load(open(f))
if sys.argv[1]=="--add":
    # manifest.py --add PROP thm,thm
    for c in M['claims']:
        if c['property']==sys.argv[2]:
            for t in sys.argv[3].split(","):
                if t not in c['theorems']: c['theorems'].append(t)
            if len(sys.argv)>4: c['note']=(c['note']+" "+sys.argv[4]).strip()
    json.dump(M,open(f,'w'),indent=1); sys.exit()
p,st,ths=sys.argv[1:4]
note=sys.argv[4] if len(sys.argv)>4 else ""
V="Verif.Stream."
M['claims']=[c for c in M['claims'] if c['property']!=p]
M['claims'].append({"property":p,"status":st,"theorems":[t if t.startswith("Verif.") else V+t for t in ths.split(",") if t],"note":note})
M['claims'].sort(key=lambda c:c['property'])
json.dump(M,open(f,'w'),indent=1)
