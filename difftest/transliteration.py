"""Statement by statement transliteration of the multi-protocol commitments in /repo/commit_verify.

Written from the Rust source, not from the Lean model: mutable state, explicit integer widths, panics
and debug assertions as exceptions, hashing by hashlib. Sources: mpc/block.rs (Block, Proof),
mpc/tree.rs (Tree, try_commit, protocol_id_pos), mpc/atoms.rs (leaf_id), merkle.rs (merklize, Buoy),
digest.rs and id.rs (tagged hashes), strict encoding as derived by the attributes of these types.
"""
import hashlib
class Panic(Exception): pass
DEBUG=True
def dassert(c):
    if DEBUG and not c: raise Panic('debugAssert')
def u32_add(a,b):
    r=a+b
    if r>>32:
        if DEBUG: raise Panic('overflow')
        r&=0xffffffff
    return r
def u32_sub(a,b):
    r=a-b
    if r<0:
        if DEBUG: raise Panic('overflow')
        r&=0xffffffff
    return r
def u8_sub(a,b):
    r=a-b
    if r<0:
        if DEBUG: raise Panic('overflow')
        r&=0xff
    return r
def pow2(e):
    if e>=32:
        if DEBUG: raise Panic('overflow')
        return 0
    return 1<<e
def u32_rem(a,b):
    if b==0: raise Panic('divByZero')
    return a%b
def u5(n):
    if not 0<=n<32: raise Panic('overflow')
    return n
def expect(c):
    if not c: raise Panic('expect')
def le(n,k): return n.to_bytes(k,'little')
# ---- digest / ids
def tagged(tag):
    t=hashlib.sha256(tag.encode()).digest()
    h=hashlib.sha256(); h.update(t); h.update(t); return h
NODE_TAG="urn:ubideco:merkle:node#2024-01-31"
MPC_TAG=None
def read_tag():
    global MPC_TAG
    import re
    s=open('/repo/commit_verify/src/mpc/atoms.rs').read()
    MPC_TAG=re.search(r'impl CommitmentId for Commitment \{\s*const TAG: &\'static str = "([^"]+)"',s).group(1)
read_tag()
def merkle_node_id(branching,depth,width,n1,n2):
    h=tagged(NODE_TAG); h.update(bytes([branching])+le(depth,1)+le(width,32)+n1+n2); return h.digest()
VIRTUAL=b'\xff'*32
def mh_branches(depth,width,a,b): return merkle_node_id(2,depth,width,a,b)
def mh_single(depth,width,a): return merkle_node_id(1,depth,width,a,VIRTUAL)
def mh_void(depth,width): return merkle_node_id(0,depth,width,VIRTUAL,VIRTUAL)
def leaf_id(l):
    h=tagged(NODE_TAG)
    if l[0]=='I': h.update(b'\x10'+l[1]+l[2])
    else: h.update(b'\x11'+le(l[1],8)+le(l[2],4))
    return h.digest()
def merklize(ids):
    base=len(ids)
    it=iter(ids)
    if base==1: return next(it)
    return _merklize(it,0,base,base)
def _merklize(it,depth,bw,base):
    if bw<=2:
        a=next(it,None); b=next(it,None)
        if a is None and b is None: return mh_void(depth,base)
        if b is None: return mh_single(depth,base,a)
        return mh_branches(depth,base,a,b)
    div=bw//2+bw%2
    sl=[]
    for _ in range(div):
        x=next(it,None)
        if x is None: break
        sl.append(x)
    b1=_merklize(iter(sl),u5(depth+1),div,base)
    b2=_merklize(it,u5(depth+1),bw-div,base)
    return mh_branches(depth,base,b1,b2)
class Buoy:
    def __init__(s,top): s.buoy=top; s.stack=None
    def level(s): return s.stack.level() if s.stack else s.buoy
    def push(s,d):
        if d==0: return False
        r=None
        if s.stack is not None: r=(s.stack.push(d),s.stack.level())
        if r is None and d==s.buoy:
            s.buoy=u5(s.buoy-1); return True
        if r is None:
            s.stack=Buoy(d); return False
        if r[0]:
            s.stack=None
            return s.push(r[1])
        return False
# ---- nodes: ('C',depth,hash) or ('L',pid,msg)
def depth_or(n,d): return n[1] if n[0]=='C' else d
def to_merkle_node(n): return n[2] if n[0]=='C' else leaf_id(('I',n[1],n[2]))
def protocol_id_pos(pid,cof,depth):
    width=pow2(depth)
    dassert(width!=0)
    rem=int.from_bytes(pid,'little')%max(max(width-cof,0),1)
    return (rem&(2**64-1))&0xffffffff
class Err(Exception):
    pass
class Block:
    def __init__(s,depth,cof,cs,ent): s.depth=depth; s.cof=cof; s.cs=list(cs); s.ent=ent
    def clone(s): return Block(s.depth,s.cof,s.cs,s.ent)
    def width_limit(s): return pow2(s.depth)
    @staticmethod
    def with_(pr,pid,msg):
        pos=pr.pos; wl=pr.width_limit()
        exp=protocol_id_pos(pid,pr.cof,pr.depth())
        if exp!=pos: raise Err('invalidProof',pid,exp,pos,wl)
        dir_=[]; rev=[]
        for d,h in enumerate(pr.path):
            if pos>=wl//2:
                pos-=wl//2; lst=dir_
            else: lst=rev
            lst.append(('C',u5(u5(d&0xff)+1),h))
            wl//=2
        cs=dir_+[('L',pid,msg)]+rev[::-1]
        expect(1<=len(cs))
        return Block(u5(len(pr.path)&0xff),pr.cof,cs,None)
    def conceal_except(s,protocols):
        count=0
        not_found=set(protocols)
        s.ent=None
        for i,n in enumerate(s.cs):
            if n[0]=='C': pass
            elif n[1] in protocols: not_found.discard(n[1])
            else:
                count+=1
                s.cs[i]=('C',s.depth,to_merkle_node(n))
        if not_found: raise Err('leafNotKnown',min(not_found))
        while True:
            dassert(len(s.cs)!=0)
            prev=count; offset=0; pos=0; ln=len(s.cs)
            while pos<ln:
                if pos>=len(s.cs): raise Panic('index')
                n1=s.cs[pos]; n2=s.cs[pos+1] if pos+1<len(s.cs) else None
                if n1[0]=='C' and n2 is not None and n2[0]=='C' and n1[1]==n2[1]:
                    depth=u5(n1[1]-1)
                    height=u32_sub(s.depth,depth)
                    pw=pow2(height)
                    if u32_rem(offset,pw)!=0:
                        offset=u32_add(offset,pow2(u32_sub(s.depth,n1[1])))
                    else:
                        s.cs[pos]=('C',depth,mh_branches(depth,s.width_limit(),n1[2],n2[2]))
                        expect(len(s.cs)-1>=1)
                        del s.cs[pos+1]
                        count+=1
                        offset=u32_add(offset,pw)
                        ln-=1
                elif n1[0]=='C' and (n2 is None or n2[0]=='C'):
                    offset=u32_add(offset,pow2(u32_sub(s.depth,n1[1])))
                elif n1[0]=='L' and n2 is not None and n2[0]=='L':
                    offset=u32_add(offset,2); pos+=1
                elif n1[0]=='C' and n2[0]=='L':
                    offset=u32_add(offset,pow2(u32_sub(s.depth,n1[1])))
                    offset=u32_add(offset,1)
                    pos+=1
                else:
                    offset=u32_add(offset,1)
                pos+=1
            if count==prev: break
            dassert(offset==s.width_limit())
        return count
    def conceal(s):
        c=s.clone()
        try: c.conceal_except([])
        except Err: raise Panic('expect')
        dassert(len(c.cs)==1)
        if not(len(c.cs)>0 and c.cs[0][0]=='C' and c.cs[0][1]==0): raise Panic('explicit')
        return (s.depth,s.cof,c.cs[0][2])
    def commit_id(s):
        h=tagged(MPC_TAG); d,c,r=s.conceal(); h.update(bytes([d])+le(c,2)+r); return h.digest()
    def merge_reveal(s,o):
        base=s.commit_id(); merged=o.commit_id()
        if base!=merged: raise Err('unrelated',base,merged)
        cs=[]
        a=iter(s.cs); b=iter(o.cs)
        la=next(a,None); lb=next(b,None)
        while la is not None and lb is not None:
            n1,n2=la,lb
            d1=depth_or(n1,s.depth); d2=depth_or(n2,s.depth)
            if d1==d2 and n1==n2:
                cs.append(n1); la=next(a,None); lb=next(b,None)
            elif d1==d2:
                t=(n1[0]=='L',n2[0]=='L')
                if t==(True,False): cs.append(n1)
                elif t==(False,True): cs.append(n2)
                elif t==(False,False): pass
                else: raise Panic('unreachable')
                la=next(a,None); lb=next(b,None)
            elif d1<d2:
                cs.append(n2); buoy=Buoy(d2); stop=False; lb=None
                for n in b:
                    if stop: lb=n; break
                    buoy.push(depth_or(n,s.depth))
                    if buoy.level()<=d1: stop=True
                    cs.append(n)
                la=next(a,None)
            else:
                cs.append(n1); buoy=Buoy(d1); stop=False; la=None
                for n in a:
                    if stop: la=n; break
                    buoy.push(depth_or(n,s.depth))
                    if buoy.level()<=d2: stop=True
                    cs.append(n)
                lb=next(b,None)
        cs.extend(a); cs.extend(b)
        expect(len(cs)>=1)
        s.cs=cs
        tot=0
        for n in s.cs:
            tot=u32_add(tot,pow2(u8_sub(s.depth,depth_or(n,s.depth))))
        if tot!=s.width_limit(): raise Panic('assert')
        if base!=s.commit_id(): raise Panic('assert')
        return len(s.cs)&0xffff
    def merge_reveal_path(s,pr,pid,msg):
        return s.merge_reveal(Block.with_(pr,pid,msg))
    def to_merkle_proof(s,pid):
        s=s.clone()
        s.conceal_except([pid])
        m={}
        for n in s.cs:
            if n[0]=='C':
                ins=n[1] not in m
                m[n[1]]=n[2]
                dassert(ins)
        dassert(s.depth==len(m))
        expect(len(m)<=32)
        return Proof(protocol_id_pos(pid,s.cof,s.depth),s.cof,[m[k] for k in sorted(m)])
    def known(s): return [n[1] for n in s.cs if n[0]=='L']
    def into_known_proofs(s):
        r=[]
        for i in s.known():
            try: r.append((i,s.to_merkle_proof(i)))
            except Err: raise Panic('expect')
        return r
    def factored_width(s): return u32_sub(s.width_limit(),s.cof)
    def enc(s):
        r=b'\x00'+bytes([s.depth])+le(s.cof,2)+le(len(s.cs),4)
        for n in s.cs: r+= (b'\x00'+bytes([n[1]])+n[2]) if n[0]=='C' else b'\x01'+n[1]+n[2]
        return r+(b'\x00' if s.ent is None else b'\x01'+le(s.ent,8))
class Proof:
    def __init__(s,pos,cof,path): s.pos=pos; s.cof=cof; s.path=path
    def depth(s): return u5(len(s.path)&0xff)
    def width_limit(s): return pow2(s.depth())
    def convolve(s,pid,msg): return Block.with_(s,pid,msg).commit_id()
    def enc(s): return b'\x00'+le(s.pos,4)+le(s.cof,2)+bytes([len(s.path)])+b''.join(s.path)
class Tree:
    def __init__(s,depth,ent,cof,msgs,map_): s.depth=depth; s.ent=ent; s.cof=cof; s.msgs=msgs; s.map=map_
    def root(s):
        w=pow2(s.depth)
        return merklize([leaf_id(('I',)+s.map[p]) if p in s.map else leaf_id(('E',s.ent,p)) for p in range(w)])
    def block(s):
        return Block(s.depth,s.cof,[('L',)+s.map[p] if p in s.map else ('C',s.depth,leaf_id(('E',s.ent,p))) for p in range(pow2(s.depth))],s.ent)
    def enc(s):
        r=b'\x00'+bytes([s.depth])+le(s.ent,8)+le(s.cof,2)+le(len(s.msgs),3)
        for k in sorted(s.msgs): r+=k+s.msgs[k]
        r+=le(len(s.map),3)
        for k in sorted(s.map): r+=le(k,4)+s.map[k][0]+s.map[k][1]
        return r
def try_commit(min_depth,msgs,ent):
    n=len(msgs)
    if min_depth==0 and n==0: raise Err('empty')
    if n>2**31: raise Err('tooMany')
    depth=min_depth; prev=1
    while True:
        wl=pow2(depth)
        if wl>=n:
            for cof in range(0,(min(prev,500)&0xffff)+1):
                m={}; ok=True
                for k in sorted(msgs):
                    p=protocol_id_pos(k,cof,depth)
                    was=p in m
                    m[p]=(k,msgs[k])
                    if was: ok=False; break
                if ok: return Tree(depth,ent,cof,dict(msgs),m)
        prev=wl
        if depth+1>31: raise Err('cantFit',n)
        depth+=1
