import subprocess,math,gzip,os,sys
T='/repo/tests/'
def run(*a,timeout=1500):
    try: return subprocess.run(['./conf']+[str(x) for x in a],capture_output=True,text=True,timeout=timeout).stdout.strip().split('\n')
    except subprocess.TimeoutExpired: return ['TIMEOUT']
def write(v,p):
    open(p,'w').write("\n".join(repr(float(x)) for x in v)+"\n"); return p
def data(f):
    o=gzip.open(T+f,'rt') if f.endswith('gz') else open(T+f)
    return [float(l) for l in o if not l.startswith('#') and l.strip()]
def s32(f):
    out=[]
    for l in open(T+f):
        if l.startswith('#'): continue
        r=[float(v) for v in l.split()]
        if len(r)==7: out.append(dict(m=int(r[0]),n=int(r[2]),alpha=int(r[3]),lo=r[4],dev=r[5],hi=r[6]))
        elif len(r)==4: out.append(dict(m=int(r[0]),n=int(r[2]),dev=r[3]))
    return out
tot=0;badtot=0
def report(name,k,bad,mx=0):
    global tot,badtot
    tot+=k; badtot+=bad
    print('%-55s %4d values, %d different, largest rel. difference %.2g'%(name,k,bad,mx),flush=True)
def cmpdev(name,file,rate,ty,fn,taus,ref,tol,ns=None):
    o=run('dev',file,repr(float(rate)),ty,fn,*[repr(float(t)) for t in taus])
    got=[l.split() for l in o]
    bad=0;mx=0
    if len(got)!=len(taus): print(name,'LEN',o[:3]); bad=len(taus); 
    else:
        for i,w in enumerate(got):
            e=abs(float(w[2])-ref[i])/abs(ref[i]); mx=max(mx,e)
            if e>tol or (ns and int(w[3])!=ns[i]) or abs(float(w[1])-taus[i])>1e-9*taus[i]:
                bad+=1; print('   DIFF',w,taus[i],ref[i],ns and ns[i])
    report(name,len(taus),bad,mx)
def nbs10():
    ph=[0.00000, 103.11111, 123.22222, 157.33333,166.44444, 48.55555, -96.33333, -2.22222, 111.88889, 0.00000]
    fr=[892.0, 809.0, 823.0, 798.0, 671.0, 644.0, 883.0, 903.0, 677.0]
    write(ph,'p.txt'); write(fr,'f.txt')
    R=dict(adev=(91.22945, 115.8082),oadev=(91.22945, 85.95287),mdev=(91.22945, 74.78849),totdev=(91.22945, 93.90379),hdev=(70.80608, 116.7980),tdev=(52.67135, 86.35831),ohdev=(70.80607, 85.61487),mtotdev=(6.4509e+01, 6.4794e+01),ttotdev=(3.7244e+01, 7.4818e+01),htotdev=(70.80607, math.sqrt(0.995)*91.16396))
    for fn,r in R.items():
        cmpdev('nbs14 10 point phase '+fn,'p.txt',1,'phase',fn,[1,2],r,1e-4)
        cmpdev('nbs14 10 point freq '+fn,'f.txt',1,'freq',fn,[1,2],r,1e-4)
    for ty,f in [('phase','p.txt'),('freq','f.txt')]:
        for k in ['oadev','ohdev','tdev']:
            o=run('rt',f,ty,k,1,2); bad=0;mx=0
            ref=list(R[k])+(list(R['mdev']) if k=='tdev' else [])
            for l,r in zip(o,ref):
                e=abs(float(l.split()[-1])-r)/r; mx=max(mx,e); bad+=e>1e-5
            report('nbs14 10 point realtime %s %s'%(ty,k),len(ref),bad+(len(o)!=len(ref)),mx)
def nbs1000():
    n=[1234567890]
    for i in range(999): n.append((16807*n[-1])%2147483647)
    write([x/2147483647. for x in n],'f.txt')
    open('p.txt','w').write("\n".join(run('phase','f.txt','1'))+"\n")
    R=dict(adev=[2.922319e-01, 9.965736e-02, 3.897804e-02],oadev=[2.922319e-01, 9.159953e-02, 3.241343e-02],mdev=[2.922319e-01, 6.172376e-02, 2.170921e-02],totdev=[2.922319e-01, 9.134743e-02, 3.406530e-02],hdev=[2.943883e-01, 1.052754e-01, 3.910860e-02],tdev=[1.687202e-01, 3.563623e-01, 1.253382e-00],ohdev=[2.943883e-01, 9.581083e-02, 3.237638e-02])
    P=[ 2.9223187810675200e-01,   2.1445233564252639e-01,  1.5618112158618463e-01,1.1709745745448434e-01,   6.9029585189839343e-02,  4.9749707730398392e-02,3.8947417330713739e-02,   3.0862392741372108e-02,  1.2447414341332683e-02]
    for ty,f in [('phase','p.txt'),('freq','f.txt')]:
        for fn,r in R.items(): cmpdev('nbs14 1000 point %s %s'%(ty,fn),f,1,ty,fn,[1,10,100],r,1e-4)
        cmpdev('nbs14 1000 point %s pdev'%ty,f,1,ty,'pdev',[1,2,4,8,16,32,64,128,256],P,1e-9)
        cmpdev('nbs14 1000 point %s theo1'%ty,f,1,ty,'theo1',[10,100,1000],[1.0757e-01, 3.1789e-02, 5.0524e-03],1e-4)
    for k in ['oadev','ohdev','tdev']:
        o=run('rt','p.txt','phase',k,1,10,100)[:3]; bad=0;mx=0
        for l,r in zip(o,R[k]):
            e=abs(float(l.split()[-1])-r)/r; mx=max(mx,e); bad+=e>1e-5
        report('nbs14 1000 point realtime '+k,3,bad+(len(o)!=3),mx)
    for fn,r in [('mtotdev',[2.0664e-01, 5.5529e-02, 1.9547e-02]),('ttotdev',[1.1930e-01, 3.2060e-01, 1.1285e+00])]:
        cmpdev('nbs14 1000 point phase '+fn,'p.txt',1,'phase',fn,[1,10,100],r,1e-4)
def tables(name,file,rate,ty,lst,tol=1e-4,maxm=None):
    for fn,r in lst:
        rs=s32(r)
        if maxm: rs=[x for x in rs if x['m']<=maxm]
        cmpdev(name+' '+fn+' '+os.path.basename(r),file,rate,ty,fn,[x['m']/rate for x in rs],[x['dev'] for x in rs],tol,[x['n'] for x in rs])
def phasedat():
    write(data('phasedat/PHASE.DAT'),'p.txt'); P='phasedat/phase_dat_'
    tables('PHASE.DAT','p.txt',1,'phase',[(f,P+f+'.txt') for f in 'adev oadev mdev tdev hdev ohdev totdev mtie tierms'.split()]+[('theo1',P+'theo1_alpha0_decade.txt'),('htotdev',P+'htotdev_octave_nobias.txt'),('mtotdev',P+'mtotdev_octave.txt'),('ttotdev',P+'ttotdev_octave.txt')])
def ci():
    x=data('phasedat/PHASE.DAT'); write(x,'p.txt'); N=len(x); P='phasedat/phase_dat_'
    for fn,d,ov,md in [('adev',2,0,0),('oadev',2,1,0),('mdev',2,1,1),('tdev',2,1,1),('hdev',3,0,0),('ohdev',3,1,0)]:
        rs=s32(P+fn+'_octave.txt')
        dv=[l.split()[2] for l in run('dev','p.txt','1','phase',fn,*[float(r['m']) for r in rs])]
        o=run('gh',*['0,%d,%d,%d,%d,%d,%s'%(d,r['m'],N,ov,md,v) for r,v in zip(rs,dv)]); bad=0;mx=0
        for l,r in zip(o,rs):
            w=l.split(); e=max(abs(float(w[2])-r['lo'])/r['lo'],abs(float(w[3])-r['hi'])/r['hi']); mx=max(mx,e)
            if e>1e-3: bad+=1; print('   DIFF',l,r)
        report('PHASE.DAT intervals (alpha=0) '+fn,len(rs)*2,bad+(len(o)!=len(rs)),mx)
    rs=s32(P+'totdev_octave.txt')
    dv=[l.split()[2] for l in run('dev','p.txt','1','phase','totdev',*[float(r['m']) for r in rs])]
    o=run('tot',*['%d,%d,0,%s'%(N,r['m'],v) for r,v in zip(rs,dv)]); bad=0;mx=0
    for l,r in zip(o,rs):
        w=l.split(); e=max(abs(float(w[2])-r['lo'])/r['lo'],abs(float(w[3])-r['hi'])/r['hi']); mx=max(mx,e)
        if e>1e-3: bad+=1; print('   DIFF',l,r)
    report('PHASE.DAT intervals (alpha=0) totdev',len(rs)*2,bad,mx)
def noiseid(name,file,ty,lst):
    for fn,r in lst:
        rs=s32(r)
        dv=[l.split()[2] for l in run('dev',file,'1',ty,fn,*[float(q['m']) for q in rs])]
        o=run('cinid',file,ty,fn,*['%d,%s'%(q['m'],v) for q,v in zip(rs,dv)])
        k=bad=0;mx=0;ni=0
        for l,q in zip(o,rs):
            w=l.split()
            if w[1]=='ERROR':
                ni+=1
                if 'notImpl' not in l: print('   ',l)
                continue
            k+=2; e=max(abs(float(w[1])-q['lo'])/q['lo'],abs(float(w[2])-q['hi'])/q['hi']); mx=max(mx,e)
            if e>1e-2: bad+=1; print('   DIFF',l,q)
        report(name+' intervals with noise-ID '+fn+' (%d not implemented)'%ni,k,bad,mx)
        o=run('noiseid',file,ty,3 if 'hdev' in fn else 2,*[q['m'] for q in rs]); k=bad=0
        for l,q in zip(o,rs):
            w=l.split()
            if w[1]=='ERROR': continue
            k+=1
            if int(w[1])!=q['alpha']: bad+=1; print('   DIFF',l,q)
        report(name+' noise-ID '+fn,k,bad)
def masks():
    R=dict(prc_tdev=[(50,3e-9),(500,15e-9),(5000,30e-9)],prc_mtie=[(50,.03875e-6),(5000,.34e-6)],eprtc_tdev=[(5,1e-9),(100e3,3.33333e-5*1e-9*100e3),(301e3,10e-9)],eprtc_mtie=[(.5,4e-9),(5,4.4457e-9),(250,15.009375e-9),(500000,30e-9)],prtcA_tdev=[(5,3e-9),(500,15e-9),(5000,30e-9)],prtcB_tdev=[(5,1e-9),(250,2.5e-9),(5000,5e-9)],prtcA_mtie=[(5,.026375e-6),(500,.1e-6)],prtcB_mtie=[(5,.026375e-6),(500,.04e-6)])
    for f,l in R.items():
        o=run('mask',f,*[t for t,_ in l]); e=[abs(float(a)-b)/b for a,(_,b) in zip(o,l)]
        report('mask '+f,len(l),sum(x>1e-9 for x in e),max(e))
    o=run('taured',42,10); report('tau_reduction 10',1,o!=['[1, 2, 3, 4, 5, 7, 8, 11, 14, 17, 22, 28, 35]'])
    o=run('taured',42,2); report('tau_reduction 2',1,o!=['[1, 5, 17]'])
    import random
    write([random.random() for _ in range(128)],'p.txt')
    for s,e in [('all',range(1,43)),('octave',[1,2,4,8,16,32]),('decade',[1,2,4,10,20,40])]:
        o=run('dev','p.txt','1','phase','adev',s); report('taus '+s,len(e),[float(l.split()[1]) for l in o]!=list(e))
def pink():
    write(data('pink_frequency/pink_frequency.txt'),'f.txt')
    tables('pink','f.txt',1/42.,'freq',[(f,'pink_frequency/'+r+'.txt') for f,r in [('adev','adev'),('oadev','oadev'),('mdev','mdev'),('tdev','tdev'),('hdev','hdev'),('ohdev','ohdev'),('totdev','totdev_alpha0')]])
def ocxo():
    write(data('ocxo/ocxo_frequency.txt'),'o.txt')
    open('f.txt','w').write("\n".join(run('frac','o.txt','1e7'))+"\n")
    # the totdev table contains a bias correction; the repository skips that test
    L=[(f,'ocxo/'+f+'_octave.txt') for f in 'adev oadev mdev tdev hdev ohdev'.split()]
    tables('ocxo','f.txt',1,'freq',L,2e-3)
    noiseid("ocxo","f.txt","freq",L)
def tic():
    write(data('Keysight53230A_ti_noise_floor/tic_phase.txt'),'p.txt')
    tables('TIC','p.txt',1,'phase',[(f,'Keysight53230A_ti_noise_floor/tic_'+f+'.txt') for f in 'adev oadev mdev tdev hdev ohdev totdev tierms'.split()])
def gps():
    write(data('gps/gps_1pps_phase_data.txt.gz'),'p.txt')
    tables('gps','p.txt',1,'phase',[('adev','gps/stable32_ADEV_decade.txt')]+[(f,'gps/stable32_'+f.upper()+'_octave.txt') for f in 'oadev mdev tdev hdev ohdev totdev'.split()])
def cs():
    write(data('Cs5071A/5071A_phase.txt.gz'),'p.txt')
    tables('Cs5071A','p.txt',1,'phase',[(f,'Cs5071A/'+f+'_decade.txt') for f in 'adev oadev mdev tdev hdev ohdev totdev tierms'.split()])
def phid():
    write(data('phasedat/PHASE.DAT'),'p.txt')
    noiseid('PHASE.DAT','p.txt','phase',[('adev','phasedat/phase_dat_adev_octave.txt'),('oadev','phasedat/phase_dat_oadev_octave.txt')])
if __name__=='__main__':
    for a in sys.argv[1:]: globals()[a]()
    print('total',tot,'values,',badtot,'different')
