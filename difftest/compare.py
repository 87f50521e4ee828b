"""Compares the Lean model with transliteration.py on random inputs, in both build profiles.

usage: compare.py SEED COUNT [COMMAND]
COMMAND is a program which takes the name of a file with one operation per line and prints one result
per line; by default the model is interpreted by `lake env lean --run Verif/Run.lean` (slow).
Prints the differing cases and how often each kind of outcome occurred.
"""
import os, random, subprocess, sys, tempfile
import transliteration as c
seed=int(sys.argv[1]); N=int(sys.argv[2]); R=random.Random(seed)
CMD=sys.argv[3:] or ['lake','env','lean','--run','Verif/Run.lean']
def b32(): 
    k=R.random()
    if k<0.5: return R.randrange(6).to_bytes(32,'little')
    if k<0.7: return R.randrange(300).to_bytes(32,'little')
    return bytes(R.randrange(256) for _ in range(32))
def node(d):
    if R.random()<0.45: return ('L',b32(),b32())
    k=R.random()
    dep=d if k<0.5 else R.randrange(0,d+1) if k<0.93 else R.randrange(32)
    return ('C',dep,b32())
def subtree(d,D,deep=0.0):
    if d>=D:
        if R.random()<deep and d<31: return subtree2(d,D)
        return [('L',b32(),b32())] if R.random()<0.5 else [('C',d,b32())]
    if R.random()<0.25: return [('C',d,b32())]
    return subtree(d+1,D,deep)+subtree(d+1,D,deep)
def subtree2(d,D): return [('C',d+1,b32()),('C',d+1,b32())]
def rblock():
    k=R.random(); D=R.choice([0,1,1,2,2,3,3,4,5])
    if k<0.55: cs=subtree(0,D)
    elif k<0.65: cs=subtree(0,D,0.3)
    elif k<0.8:
        cs=subtree(0,D)
        for _ in range(R.randrange(1,3)):
            r=R.randrange(4); i=R.randrange(len(cs))
            if r==0 and len(cs)>1: del cs[i]
            elif r==1: cs.insert(i,node(D))
            elif r==2: cs[i]=node(D)
            else: cs.append(node(D))
    else: cs=[node(D) for _ in range(R.randrange(1,7))]
    if R.random()<0.03: D=R.randrange(32)
    return c.Block(D,R.choice([0,0,0,1,2,R.randrange(2**16)]),cs,R.choice([None,R.randrange(2**64)]))
def rtree():
    n=R.randrange(0,8)
    ms={b32():b32() for _ in range(n)}
    if R.random()<0.7:
        try: 
            t=c.try_commit(R.randrange(4),ms,R.randrange(2**64))
            if t.depth<=6: return t
        except c.Err: pass
    D=R.randrange(5)
    return c.Tree(D,R.randrange(2**64),R.randrange(3),{b32():b32() for _ in range(R.randrange(4))},{R.randrange(2**D+2):(b32(),b32()) for _ in range(R.randrange(6))})
def hx(b): return b.hex()
def sn(n): return f"C {n[1]} {hx(n[2])}" if n[0]=='C' else f"L {hx(n[1])} {hx(n[2])}"
def many(f,l): return ' '.join([str(len(l))]+[f(x) for x in l])
def sb(b): return f"{b.depth} {b.cof} {'-' if b.ent is None else b.ent} {many(sn,b.cs)}"
def sp(p): return f"{p.pos} {p.cof} {many(hx,p.path)}"
def sm(m): return many(lambda k:f"{hx(k)} {hx(m[k])}",sorted(m))
def st(t): return f"{t.depth} {t.ent} {t.cof} {sm(t.msgs)} "+many(lambda k:f"{k} {hx(t.map[k][0])} {hx(t.map[k][1])}",sorted(t.map))
def es(e):
    return ' '.join(hx(x) if isinstance(x,bytes) else str(x) for x in e.args)
def guard(f):
    try: return f()
    except c.Panic as p: return 'panic '+p.args[0]
cases=[]
def add(op,args,f):
    for dbg in (True,False):
        c.DEBUG=dbg
        cases.append((f"{op} {'d' if dbg else 'r'} {args}".rstrip(),guard(f)))
def mut(f):  # run f(block) reporting mutated block
    pass
def do_conceal(b,ps):
    def f():
        x=b.clone()
        try: n=x.conceal_except(ps); return f"ok {n} {sb(x)}"
        except c.Err as e: return f"err {es(e)} {sb(x)}"
    add('conceal',f"{sb(b)} {many(hx,ps)}",f)
def do_merge(b,o):
    def f():
        x=b.clone()
        try: n=x.merge_reveal(o); return f"ok {n} {sb(x)}"
        except c.Err as e: return f"err {es(e)} {sb(x)}"
    add('merge',f"{sb(b)} {sb(o)}",f)
def do_mp(b,pr,p,m):
    def f():
        x=b.clone()
        try: n=x.merge_reveal_path(pr,p,m); return f"ok {n} {sb(x)}"
        except c.Err as e: return f"err {es(e)} {sb(x)}"
    add('mergepath',f"{sb(b)} {sp(pr)} {hx(p)} {hx(m)}",f)
def do_proof(b,p):
    def f():
        try: return 'ok '+sp(b.to_merkle_proof(p))
        except c.Err as e: return f"err {es(e)}"
    add('proof',f"{sb(b)} {hx(p)}",f)
def do_conv(pr,p,m):
    def f():
        try: return 'ok '+hx(pr.convolve(p,m))
        except c.Err as e: return f"err {es(e)}"
    add('convolve',f"{sp(pr)} {hx(p)} {hx(m)}",f)
# decoding
class Bad(Exception): pass
class Rd:
    def __init__(s,b): s.b=b; s.i=0
    def take(s,n):
        if s.i+n>len(s.b): raise Bad
        s.i+=n; return s.b[s.i-n:s.i]
    def u(s,n): return int.from_bytes(s.take(n),'little')
    def end(s):
        if s.i!=len(s.b): raise Bad
    def u5(s):
        x=s.u(1)
        if x>31: raise Bad
        return x
    def method(s):
        if s.u(1)!=0: raise Bad
def dec_block(bs):
    r=Rd(bs); r.method(); d=r.u5(); cf=r.u(2); n=r.u(4); cs=[]
    for _ in range(n):
        t=r.u(1)
        if t==0: x=r.u5(); cs.append(('C',x,r.take(32)))
        elif t==1: x=r.take(32); cs.append(('L',x,r.take(32)))
        else: raise Bad
    if n<1: raise Bad
    t=r.u(1)
    if t>1: raise Bad
    e=r.u(8) if t else None
    r.end(); return 'ok '+sb(c.Block(d,cf,cs,e))
def dec_proof(bs):
    r=Rd(bs); r.method(); p=r.u(4); cf=r.u(2); n=r.u(1); path=[r.take(32) for _ in range(n)]
    if n>32: raise Bad
    r.end(); return 'ok '+sp(c.Proof(p,cf,path))
def dec_tree(bs):
    r=Rd(bs); r.method(); d=r.u5(); e=r.u(8); cf=r.u(2); ms={}; last=None
    for _ in range(r.u(3)):
        k=r.take(32); v=r.take(32)
        if last is not None and not last<k: raise Bad
        last=k; ms[k]=v
    mp={}; last=None
    for _ in range(r.u(3)):
        k=r.u(4); v=(r.take(32),r.take(32))
        if last is not None and not last<k: raise Bad
        last=k; mp[k]=v
    r.end(); return 'ok '+st(c.Tree(d,e,cf,ms,mp))
def corrupt(bs):
    k=R.random()
    if k<0.3: return bs
    b=bytearray(bs)
    if k<0.7:
        for _ in range(R.randrange(1,3)): b[R.choice([R.randrange(len(b)),R.randrange(min(len(b),12))])]=R.choice([0,1,2,R.randrange(256)])
        return bytes(b)
    if k<0.8: return bytes(b[:R.randrange(len(b))])
    if k<0.9: return bytes(b)+bytes([R.randrange(2)])
    i=R.randrange(len(b)); del b[i]; return bytes(b)
def dec(op,f,bs):
    def g():
        try: return f(bs)
        except Bad: return 'none'
    add(op,bs.hex() or '-',g)
for _ in range(N):
    c.DEBUG=True
    k=R.randrange(15)
    if k<=1:
        b=rblock(); kn=b.known(); ps=[R.choice(kn) if kn and R.random()<0.8 else b32() for _ in range(R.randrange(4))]
        do_conceal(b,ps); add('id',sb(b),lambda: hx(b.commit_id()))
    elif k<=3:
        b=rblock(); kn=b.known(); p=R.choice(kn) if kn and R.random()<0.9 else b32()
        do_proof(b,p); add('proofs',sb(b),lambda: many(lambda x:f"{hx(x[0])} {sp(x[1])}",b.into_known_proofs()))
    elif k<=7:
        # related blocks
        base=rtree().block() if R.random()<0.5 else rblock()
        def part(b):
            x=b.clone(); kn=b.known()
            if R.random()<0.2: return x
            ps=[p for p in kn if R.random()<0.5]
            try: x.conceal_except(ps)
            except (c.Panic,c.Err): x=b.clone()
            if R.random()<0.15:
                r=R.randrange(3); i=R.randrange(len(x.cs))
                if r==0: x.cs.append(node(x.depth))
                elif r==1: x.cs[i]=node(x.depth)
                elif x.cs[i][0]=='C':
                    # unfold a hidden node into two fake children (keeps width)
                    d=x.cs[i][1]
                    if d<31: x.cs[i:i+1]=[('C',d+1,b32()),('C',d+1,b32())]
            return x
        # two children known of a hidden node of the same root: choose preimages
        a_,o=part(base),part(base)
        do_merge(a_,o)
        if R.random()<0.5:
            c.DEBUG=False
            kn=base.known()
            if kn:
                p=R.choice(kn)
                try:
                    pr=base.to_merkle_proof(p); m=[n[2] for n in base.cs if n[0]=='L' and n[1]==p][0]
                    if R.random()<0.2: m=b32()
                    if R.random()<0.2: pr.pos=R.randrange(8)
                    do_mp(a_,pr,p,m); do_conv(pr,p,m)
                except (c.Panic,c.Err): pass
    elif k==8:
        pr=c.Proof(R.choice([0,1,2,3,R.randrange(2**32)]),R.choice([0,1,R.randrange(2**16)]),[b32() for _ in range(R.choice([0,1,2,3,5,31,32]))])
        p,m=b32(),b32()
        if R.random()<0.8 and len(pr.path)<32: pr.pos=c.protocol_id_pos(p,pr.cof,len(pr.path))
        do_conv(pr,p,m)
    elif k==9:
        n=R.randrange(0,12); ms={b32():b32() for _ in range(n)}; d=R.choice([0,1,2,3,4,31,29,R.randrange(32)]); e=R.randrange(2**64)
        if R.random()<0.2: ms={(R.randrange(4)*(2**R.randrange(20))*R.choice([1,720720,12252240])).to_bytes(32,'little'):b32() for _ in range(n)}
        def f():
            try: return 'ok '+st(c.try_commit(d,ms,e))
            except c.Err as x: return 'err '+es(x)
        add('commit',f"{d} {e} {sm(ms)}",f)
    elif k==10:
        t=rtree()
        add('root',st(t),lambda: hx(t.root())); add('treeid',st(t),lambda: hx(t.block().commit_id())); add('treeblock',st(t),lambda: sb(t.block()))
    elif k==11:
        l=[b32() for _ in range(R.randrange(40))]; add('merklize',many(hx,l),lambda: hx(c.merklize(l)))
    elif k==12:
        top=R.randrange(7); l=[R.randrange(8) for _ in range(R.randrange(14))]
        if R.random()<0.5: l=[R.choice([top,top+1,top+2,max(top-1,0)]) for _ in range(R.randrange(14))]
        def f():
            b=c.Buoy(top); out=['ok']
            for d in l: x=b.push(d); out.append(f"{int(x)}:{b.level()}")
            return ' '.join(out)
        add('buoy',f"{top} {many(str,l)}",f)
    elif k==13:
        b=rblock(); add('encblock',sb(b),lambda: b.enc().hex()); add('fw',sb(b),lambda: str(b.factored_width())); bs=corrupt(b.enc()); dec('decblock',dec_block,bs)
    else:
        t=rtree(); add('enctree',st(t),lambda: t.enc().hex()); bs=corrupt(t.enc()); dec('dectree',dec_tree,bs)
        pr=c.Proof(R.randrange(2**32),R.randrange(2**16),[b32() for _ in range(R.randrange(34))]); 
        if len(pr.path)<=32: add('encproof',sp(pr),lambda: pr.enc().hex())
        dec('decproof',dec_proof,corrupt(pr.enc()))
with tempfile.NamedTemporaryFile('w',suffix='.txt',delete=False) as tmp:
    tmp.write('\n'.join(x for x,_ in cases)+'\n')
p=subprocess.run(CMD+[tmp.name],capture_output=True,text=True,cwd=os.path.join(os.path.dirname(os.path.abspath(__file__)),'..','lean'))
os.unlink(tmp.name)
out=p.stdout.split('\n')[:-1]
import collections
stat=collections.Counter(); bad=0
if len(out)!=len(cases): print('LEN',len(out),len(cases),p.stderr[-300:])
for (q,w),g in zip(cases,out):
    stat[q.split()[0]+'/'+(w.split(' ')[0] if w.split(' ')[0] in('ok','err','none') else ' '.join(w.split(' ')[:2]) if w.startswith('panic') else 'val')]+=1
    if w!=g:
        bad+=1
        if bad<=3: print('DIFF',q[:1500],'\n  py',w[:400],'\n  lean',g[:400])
print('cases',len(cases),'bad',bad)
for k in sorted(stat): print('  ',k,stat[k])
