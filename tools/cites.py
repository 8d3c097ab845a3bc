"""Print, for every file/line citation in the model, the cited first and last source lines."""
import re,glob,os
R='/repo/include/TreeDS'
files={}
for d,_,fs in os.walk(R):
    for f in fs: files[f]=os.path.join(d,f)
for g in sorted(glob.glob('/verif/lean/Verif/Model/*.lean')):
    t=open(g).read()
    for m in re.finditer(r'([a-z_/]+\.hpp):? ?((?:\d+(?:-\d+)?(?:, | and )?)+)(?=[^\n]*)',t):
        f=files.get(os.path.basename(m.group(1)))
        if m.group(1)=='utility.hpp': f=R+'/utility.hpp'
        ln=t[:m.start()].count('\n')+1
        if not f: print('?',g,ln,m.group(0)); continue
        L=open(f).read().split('\n')
        for r in re.findall(r'\d+(?:-\d+)?',m.group(2)):
            a,*b=r.split('-'); a=int(a); b=int(b[0]) if b else a
            s=' // '.join(x.strip() for x in L[a-1:a+1])[:110]
            e=L[b-1].strip()[:40] if b<=len(L) else 'OUT OF RANGE'
            print(f"{os.path.basename(g)}:{ln} {os.path.basename(f)} {r}: {s}  ...  {e}")
