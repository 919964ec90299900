#!/usr/bin/env python3
"""Run wrong programs against the theorems.

usage: tools/mutate.py MUTANTS.py [id ...]

MUTANTS.py defines M = [dict(id, file, old, new, edit, claim, breaks=[property ids])].  For each mutant the module
`file` is edited (old -> new must match exactly once), and it and every module that depends on it are concatenated into
one scratch file in /tmp/mut in dependency order.  Lean's error recovery admits a theorem whose proof fails, so at the
end the axioms of each property theorem show whether it still has a proof.  Prints one JSON line per mutant."""
import sys,os,re,json,subprocess,collections
ROOT=os.environ.get('MUT_ROOT','/verif/lean')  # compiled modules; copy lean/ with its .lake to edit /verif meanwhile
SRC=os.environ.get('MUT_SRC',ROOT)  # where to read the modules from (a snapshot, while /verif/lean is being edited)
OUT='/tmp/mut'
def mods():
    r={}
    for d,_,fs in os.walk(SRC+'/Verif'):
        for f in fs:
            if f.endswith('.lean'):
                p=os.path.join(d,f)
                r[os.path.relpath(p,SRC)[:-5].replace('/','.')]=open(p).read()
    return r
def run(mut):
    src=mods()
    imp={m:re.findall(r'^import (\S+)',s,re.M) for m,s in src.items()}
    edits=mut.get('edits') or [(mut['file'],mut['old'],mut['new'])]
    changed=set()
    for f,old,new in edits:
        m='Verif.'+f
        if src[m].count(old)!=1: return dict(id=mut['id'],error=f'pattern matches {src[m].count(old)} times in {f}')
        src[m]=src[m].replace(old,new); changed.add(m)
    memo={}
    def dep(m):
        if m not in src: return False
        if m in changed: return True
        if m not in memo: memo[m]=any(dep(i) for i in imp[m])
        return memo[m]
    order=[];seen=set()
    def visit(m):
        if m in seen or m not in src: return
        seen.add(m)
        for i in imp[m]: visit(i)
        order.append(m)
    for m in sorted(src): visit(m)
    inside=[m for m in order if dep(m)]
    if os.environ.get('MUT_FOCUS'):  # only what the properties expected to break need
        want=set()
        def up(m):
            if m in want or m not in src: return
            want.add(m)
            for i in imp[m]: up(i)
        for m in inside:
            if m.startswith('Verif.Props') and any(re.search(rf'^theorem {c}_',src[m],re.M) for c in mut['breaks']): up(m)
        inside=[m for m in inside if m in want]
    heads=[]
    for m in inside:
        for i in imp[m]:
            if i not in inside and i not in heads: heads.append(i)
    text=[f'import {h}' for h in heads]; spans=[]
    line=len(text)+1
    thms=[]
    for m in inside:
        body=re.sub(r'^import \S+.*$','',src[m],flags=re.M)
        body=re.sub(r'(?<![\w.])to(?![\w.\'])',"to'",body); body=re.sub(r'(?<![\w.])to(?=\.)',"to'",body)  # `to` is a Mathlib token
        chunk=f'section\n{body}\nend'
        n=chunk.count('\n')+1
        spans.append((line,line+n,m,chunk.split('\n')))
        text.append(chunk); line+=n
        if m.startswith('Verif.Props'): thms+=re.findall(r'^theorem (C\d\d\w*)',body,re.M)
    for t in thms: text.append(f'#print axioms SymRust.{t}')
    fn=f'{OUT}/{mut["id"]}.lean'
    open(fn,'w').write('\n'.join(text)+'\n')
    try:
        p=subprocess.run(['lake','env','lean',fn],cwd=ROOT,capture_output=True,text=True,timeout=3000)
        out=p.stdout+p.stderr
    except subprocess.TimeoutExpired as e:
        return dict(id=mut['id'],error='timeout')
    open(fn+'.out','w').write(out)
    if 'object file' in out: return dict(id=mut['id'],error='compiled modules missing')
    direct=[]
    for mm in re.finditer(r':(\d+):\d+: error',out):
        ln=int(mm.group(1))
        for a,b,m,ls in spans:
            if a<=ln<b:
                k=ln-a
                while k>0 and not re.match(r'(@\[.*\] )?(private )?(theorem|def|instance|example|lemma|abbrev|macro)\b',ls[k]): k-=1
                w=re.match(r'(@\[.*\] )?(private )?(theorem|def|instance|example|lemma|abbrev|macro)\s*(\S*)',ls[k])
                d=(w.group(4) if w and w.group(3)!='example' else f'example in {m}') if w else m
                if d not in direct: direct.append(d)
    ax=dict(re.findall(r"'SymRust\.(C\d\d\w*)' depends on axioms: \[([^\]]*)\]",out,re.S))
    failed=[t for t in thms if 'sorryAx' in ax.get(t,'') or (t not in ax and f"SymRust.{t}' does not depend" not in out)]
    miss=[c for c in mut['breaks'] if not any(t.startswith(c+'_') for t in failed)]
    return dict(id=mut['id'],definition=mut.get('definition') or edits[0][0],edit=mut['edit'],claim=mut['claim'],breaks=mut['breaks'],
        failed=failed,failed_directly=direct,survived_although_expected=miss)
if __name__=='__main__':
    g={}
    exec(open(sys.argv[1]).read(),g)
    for mut in g['M']:
        if len(sys.argv)>2 and mut['id'] not in sys.argv[2:]: continue
        print(json.dumps(run(mut)),flush=True)
