#!/usr/bin/env python3
# Writes MANIFEST.json: every theorem Candy.Props.Cxx_* in lean/Verif/Props is listed under its property; statuses and notes below.
import re,json,glob,os
root=os.path.dirname(os.path.dirname(os.path.abspath(__file__)))
thms={}
for f in sorted(glob.glob(root+'/lean/Verif/Props/*.lean')):
    for m in re.finditer(r'^theorem (C(\d\d)_\w+)',open(f).read(),re.M):
        thms.setdefault('C'+m.group(2),[]).append('Candy.Props.'+m.group(1))
status={}
exec(open(root+'/tools/status.py').read())
claims=[]
for p in sorted(thms):
    st,note=status.get(p,('proved',''))
    claims.append({'property':p,'status':st,'theorems':thms[p],'note':note})
for p in sorted(status):
    if p not in thms and status[p][0]=='not_applicable':
        claims.append({'property':p,'status':'not_applicable','theorems':[],'note':status[p][1]})
claims.sort(key=lambda c:c['property'])
json.dump({'claims':claims},open(root+'/MANIFEST.json','w'),indent=1)
print(len(claims),'claims',sum(len(c['theorems']) for c in claims),'theorems')
