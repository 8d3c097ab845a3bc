import re,os,random,subprocess,shutil,signal,sys,json
BASE='/tmp/mut/base'; SC='/tmp/sw/lean'
import glob
def code_lines(s):
    # yield (idx,line) outside of block comments
    out=[];depth=0
    for i,l in enumerate(s.split('\n')):
        d0=depth
        depth+=l.count('/-')-l.count('-/')
        if d0==0 and '/-' not in l and not l.strip().startswith('--'): out.append((i,l))
    return out
pairs=[('.first','.last'),('.next','.prev'),('.left','.right'),('first :=','last :='),('next :=','prev :='),('left :=','right :='),('true','false'),('&&','||'),('==','!='),('front','back')]
def muts():
    res=[]
    for f in sorted(glob.glob(BASE+'/Verif/Model/*.lean')):
        s=open(f).read(); name=os.path.basename(f)
        for i,l in code_lines(s):
            if re.match(r'(import|open|namespace|end|variable|section|structure|inductive|theorem|deriving|instance)\b',l.strip()): continue
            def add(new,kind):
                if new!=l: res.append((name,i,l,new,kind))
            for a,b in pairs:
                for x,y in((a,b),(b,a)):
                    for m in re.finditer(re.escape(x)+r'(?![A-Za-z0-9_\'])',l):
                        if x[0].isalpha() and m.start()>0 and (l[m.start()-1].isalnum() or l[m.start()-1] in '._'): continue
                        add(l[:m.start()]+y+l[m.end():],x+'>'+y)
            for m in re.finditer(r' \+ 1\b',l):
                if '|' in l[:m.start()] and '=>' not in l[:m.start()]: continue
                add(l[:m.start()]+l[m.end():],'drop+1')
            for m in re.finditer(r' - 1\b',l): add(l[:m.start()]+l[m.end():],'drop-1')
            for m in re.finditer(r'\bif (?!let)(.*?) then',l):
                c=m.group(1)
                if '←' in c or ':' in c: 
                    add(l[:m.start()]+'if !('+c.strip()+') then'+l[m.end():],'neg'); continue
                add(l[:m.start()]+'if ¬ ('+c+') then'+l[m.end():],'neg')
            for m in re.finditer(r':= some (\w+|\([^()]*\))(?= ?[},])',l): add(l[:m.start()]+':= none'+l[m.end():],'some>none')
            if re.match(r'\s*let (h|W|m|\w+) ← ',l): add(None,'del')
            for m in re.finditer(r'⟨([^⟨⟩,]+), ([^⟨⟩,]+)(.*?)⟩',l):
                if m.group(1)!=m.group(2): add(l[:m.start()]+'⟨'+m.group(2)+', '+m.group(1)+m.group(3)+'⟩'+l[m.end():],'swap')
            for m in re.finditer(r'\b(\d)\b',l):
                pass
    return res
if __name__=='__main__':
    M=muts(); print(len(M))
    if len(sys.argv)<2: sys.exit()
    random.seed(7); random.shuffle(M)
    done=set()
    lf='/tmp/sw/log.jsonl'
    if os.path.exists(lf):
        for l in open(lf): j=json.loads(l); done.add((j['f'],j['i'],j['new'],))
    for (name,i,l,new,kind) in M:
        if (name,i,new) in done: continue
        if not os.path.exists('/tmp/sw/go'): break
        subprocess.run('rm -rf %s/Verif %s/.lake/build; cp -r %s/Verif %s/; cp -r /tmp/sw/build %s/.lake/build'%(SC,SC,BASE,SC,SC),shell=True,check=True)
        p=SC+'/Verif/Model/'+name
        L=open(p).read().split('\n')
        if new is None: del L[i]
        else: L[i]=new
        open(p,'w').write('\n'.join(L))
        pr=subprocess.Popen(['nice','lake','build'],cwd=SC,stdout=subprocess.PIPE,stderr=subprocess.STDOUT,text=True,start_new_session=True)
        verdict='survived'
        where=''
        for o in pr.stdout:
            m=re.search(r'error: (Verif/\S+?\.lean):(\d+)',o)
            if m:
                verdict='invalid' if '/Model/' in m.group(1) else 'killed'; where=m.group(1)+':'+m.group(2)
                os.killpg(pr.pid,signal.SIGKILL); break
            elif 'error' in o and 'Verif' in o: where+=o[:100]
        pr.wait()
        with open(lf,'a') as fo: fo.write(json.dumps(dict(f=name,i=i,old=l,new=new,kind=kind,v=verdict,w=where))+'\n')
