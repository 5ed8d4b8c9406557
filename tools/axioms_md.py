#!/usr/bin/env python3
"""Rewrites the list in the section "Axioms" of DESIGN.md from the output of axioms.sh (stdin)."""
import re,sys
g={}
for l in sys.stdin.read().replace('\n ',' ').split('\n'):
    m=re.match(r"'(?:Candy\.Props\.)?(\S+)' (?:depends on axioms: \[(.*)\]|does not depend on any axioms)",l)
    if m: g.setdefault(m.group(2) or 'no axioms',[]).append(m.group(1))
s=open('DESIGN.md').read()
a=s.index("* **no axioms**"); b=s.index("\n\n",a)
out=[]
for k in sorted(g,key=lambda k:(k!='no axioms',len(k))): out.append(f"* **{k}** ({len(g[k])}): "+", ".join(g[k]))
assert g
s=s[:a]+"\n".join(out)+s[b:]
open('DESIGN.md','w').write(s)
print({k:len(v) for k,v in g.items()})
