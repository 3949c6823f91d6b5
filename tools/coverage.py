#!/usr/bin/env python3
"""Lists the functions of /repo/cyjax with the model definitions citing their lines."""
import ast, glob, re, sys
REPO='/repo/'
cites={}  # file -> list of (a,b,defname)
DECL=re.compile(r'^(?:@\[[^\]]*\]\s*)?(?:private |protected |noncomputable )*(def|structure|inductive|abbrev|class)\s+(\S+)',re.M)
for f in sorted(glob.glob('/verif/lean/Verif/Model/*.lean')):
    s=open(f).read()
    for m in re.finditer(r'/--(.*?)-/\s*(.*?)(?=\n)',s,re.S):
        txt=m.group(1)
        rest=s[m.end(1):m.end(1)+400]
        d=DECL.search(rest)
        name=d.group(2) if d else '?'
        for c in re.finditer(r'(?:cyjax/)?(\w+\.py):(\d+)(?:-(\d+))?((?:,\s*\d+(?:-\d+)?)*)',txt):
            a=int(c.group(2)); b=int(c.group(3) or a)
            cites.setdefault(c.group(1),[]).append((a,b,name))
            for x in re.finditer(r'(\d+)(?:-(\d+))?',c.group(4) or ''):
                cites[c.group(1)].append((int(x.group(1)),int(x.group(2) or x.group(1)),name))
for path in sorted(glob.glob(REPO+'cyjax/*.py')):
    fn=path.split('/')[-1]
    tree=ast.parse(open(path).read())
    out=[]
    def walk(node,prefix):
        for ch in ast.iter_child_nodes(node):
            if isinstance(ch,(ast.FunctionDef,ast.AsyncFunctionDef)):
                out.append((prefix+ch.name,ch.lineno,ch.end_lineno)); 
            elif isinstance(ch,ast.ClassDef): walk(ch,prefix+ch.name+'.')
    walk(tree,'')
    if not out: continue
    print('##',fn)
    for name,a,b in out:
        ds=sorted({d for (x,y,d) in cites.get(fn,[]) if x<=b and y>=a and (y-x)<=(b-a)+40 })
        print(('  + ' if ds else '  - ')+f'{name} {a}-{b}',', '.join(ds))
