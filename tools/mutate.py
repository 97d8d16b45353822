#!/usr/bin/env python3
"""Run wrong-program experiments: apply one textual edit to a scratch copy of the model, rebuild, and log
which theorems fail.  usage: mutate.py FILE.json [--log]   (list of {file, old, new, definition, edit, claim})"""
import json,subprocess,sys,os,re,shutil
SRC='/verif/lean'; DST='/tmp/mut/lean'
def sync():
    os.makedirs('/tmp/mut',exist_ok=True)
    subprocess.run(['rsync','-a','--delete',SRC+'/',DST+'/'],check=True) if shutil.which('rsync') else \
      subprocess.run('rm -rf /tmp/mut/lean && cp -a /verif/lean /tmp/mut/lean',shell=True,check=True)
def thm_at(path,line):
    name=None; ns=''
    for i,l in enumerate(open(path),1):
        if i>line: break
        m=re.match(r'\s*(?:private |protected |@\[[^\]]*\] )*(theorem|lemma|def|instance|example|structure)\s*([^\s:({\[]*)',l)
        if m: name=(m.group(2) or 'example') if m.group(1)!='example' else 'example@%d'%i
    return name
def main():
    muts=json.load(open(sys.argv[1])); log='--log' in sys.argv
    sync()
    for m in muts:
        f=os.path.join(DST,'Verif',m['file']); s=open(f).read()
        if s.count(m['old'])<1: print('!! not found',m['definition'],m['old'][:60]); continue
        if s.count(m['old'])>1 and not m.get('first'): print('!! ambiguous',m['definition'],s.count(m['old'])); continue
        t=s.replace(m['old'],m['new'],1); open(f,'w').write(t)
        r=subprocess.run(['lake','build','Verif'],cwd=DST,capture_output=True,text=True)
        out=r.stdout+r.stderr
        fails=[]
        for e in re.finditer(r'error: (Verif/[\w/]+\.lean):(\d+):\d+',out):
            n=thm_at(os.path.join(DST,e.group(1)),int(e.group(2)))
            k=e.group(1)[6:-5].replace('/','.')+':'+str(n)
            if k not in fails: fails.append(k)
        blocked=sorted(set(x for x in re.findall(r'^- (Verif\.[\w.]+)',out,re.M)))
        open(f,'w').write(s)
        verdict='SURVIVED' if r.returncode==0 else 'caught'
        print(verdict,m['definition'],'|',m['edit'],'|',fails[:6])
        sys.stdout.flush()
        if log:
            with open('/verif/seeded/LOG.jsonl','a') as g:
                g.write(json.dumps({"definition":m['definition'],"edit":m['edit'],"claim":m['claim'],
                  "failed":fails,"survived":r.returncode==0,"tightened":m.get('tightened',[])})+'\n')
main()
