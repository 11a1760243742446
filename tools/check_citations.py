import re,os,glob,ast
R='/repo/'
"""Lists model definitions without a citation and citations of lines that do not exist."""
for f in sorted(glob.glob('/verif/lean/Verif/Model/*.lean')):
    t=open(f).read()
    # defs
    items=list(re.finditer(r'(?:/--(?P<doc>(?:(?!-/).)*)-/\s*)?(?P<mods>(?:@\[[^\]]*\]\s*|open Classical in\s*|set_option [^\n]* in\s*)*)(?:noncomputable |private |protected )*(?P<k>def|structure|inductive|abbrev|class|instance)\s+(?P<n>\S+)',t,re.S))
    for m in items:
        d=m.group('doc') or ''
        if '/repo/' not in d:
            print(os.path.basename(f),m.group('k'),m.group('n'),'| NO CITE |',d.strip()[:90].replace('\n',' '))
    for c in re.finditer(r'/repo/([\w/\.]+\.py)(?::([\d,\- ]+))?',t):
        p=R+c.group(1)
        if not os.path.exists(p): print('MISSING FILE',f,c.group(0)); continue
        n=len(open(p).read().split('\n'))
        if c.group(2):
            for x in re.findall(r'\d+',c.group(2)):
                if int(x)>n: print('LINE',f,c.group(0))
