# Transcription of src/ and 3rd/lct/LCT.cpp into Python, line by line, with the counters of Model/SolverCost.lean.
# Written from the C++ text, not from the Lean model. Data is Fraction, or float (double.py).
from fractions import Fraction as Fr
import random,sys
sys.setrecursionlimit(100000)
class Cnt: pass
C=Cnt()
def reset():
    C.rounds=C.steps=C.walk=C.iters=C.evals=0
def tdiv(a,b):
    q=abs(a)//abs(b)
    return q if (a<0)==(b<0) else -q
class Node:
    __slots__=('fa','ch','val','add','min')
    def __init__(s): s.fa=None; s.ch=[None,None]; s.val=Fr(0); s.add=Fr(0); s.min=(Fr(0),None)
    def find_root(s):
        x=s.access()
        while x.ch[0]:
            x=x.ch[0]; C.walk+=1
        return x
    def set_fa(s,f):
        s.splay(); assert s.fa is None; s.fa=f
    def cut(s):
        s.access(); assert s.ch[0]
        s.ch[0].fa=None; s.ch[0]=None; s.push_up()
    def get_val(s):
        if not s.is_root(): s.access()
        return s.val
    def get_min(s):
        s.access(); ret=(s.val,s); p=s
        while True:
            C.walk+=1
            p.push_down()
            if p.ch[1] and p.ch[1].min[0]<=ret[0]: ret=p.ch[1].min
            if not p.ch[0]: break
            if p.val<=ret[0]: ret=(p.val,p)
            p=p.ch[0]
        return ret
    def set_val(s,v):
        if not s.is_root(): s.access()
        s.val=v; s.push_up()
    def add_way(s,d): s.access(); s.update_add(d)
    def push_up(s):
        s.min=(s.val,s)
        if s.ch[0] and s.ch[0].min[0]<=s.min[0]: s.min=s.ch[0].min
        if s.ch[1] and s.ch[1].min[0]<s.min[0]: s.min=s.ch[1].min
    def setc(s,p,d):
        s.ch[d]=p
        if p: p.fa=s
    def d(s): return 1 if s.fa.ch[1] is s else 0
    def is_root(s): return s.fa is None or (s.fa.ch[0] is not s and s.fa.ch[1] is not s)
    def update_add(s,w): s.val+=w; s.add+=w; s.min=(s.min[0]+w,s.min[1])
    def push_down(s):
        if s.add!=0:
            for c in s.ch:
                if c: c.update_add(s.add)
            s.add=Fr(0)
    def pdfr(s):
        C.steps+=1
        if not s.is_root(): s.fa.pdfr()
        s.push_down()
    def rot(s):
        C.steps+=1
        f=s.fa; ff=f.fa; c=s.d(); cc=1 if (ff and f.d()) else 0
        f.setc(s.ch[1-c],c); s.setc(f,1-c)
        if ff and ff.ch[cc] is f: ff.setc(s,cc)
        else: s.fa=ff
        f.push_up()
    def splay(s):
        s.pdfr()
        while not s.is_root():
            if not s.fa.is_root():
                s.fa.rot() if s.d()==s.fa.d() else s.rot()
            s.rot()
        s.push_up(); return s
    def access(s):
        p=s;q=None
        while p:
            C.steps+=1
            p.splay().setc(q,1); p.push_up(); q=p; p=p.fa
        return s.splay()
class Lim:
    def __init__(s,l,u,fn,i=0,j=0): s.l,s.u,s.fn,s.i,s.j=l,u,fn,i,j
    def copy(s): return Lim(s.l,s.u,s.fn,s.i,s.j)
    def ev(s,x): C.evals+=1; return s.fn(x)
    def mp(s):
        l,r=s.l,s.u
        while l!=r:
            C.iters+=1
            mid=l+tdiv(r-l,2)
            if s.ev(mid)>s.ev(mid+1): l=mid+1
            else: r=mid
        return l
    def pre(s):
        m=s.mp(); fn=s.fn; s.fn=lambda x:fn(max(m,x))
    def min(s): return s.ev(s.mp())
    def reverse(s):
        fn=s.fn; s.l,s.u=-s.u,-s.l; s.fn=lambda x:fn(-x); s.i,s.j=s.j,s.i
    def merge(s,o):
        s.l=max(s.l,o.l); s.u=min(s.u,o.u); f1,f2=s.fn,o.fn; s.fn=lambda x:f1(x)+f2(x)
        assert s.i==o.i and s.j==o.j
        return not s.l<=s.u
class Flow:
    def __init__(s,n,M,U,limits):
        s.n=n;s.M=M;s.eps=1
        while s.eps<2*(n+1)*U: s.eps*=2; C.iters+=1
        assert tdiv(tdiv(s.eps,2),n+1)>=U
        s.nodes=[Node() for _ in range(n+1)]; s.idx={id(x):k for k,x in enumerate(s.nodes)}
        s.imb=[Fr(0)]*(n+1); s.ce=[0]*(n+1); s.q_=[]; s.inq=[False]*(n+1); s.fa=[None]*(n+1)
        C.iters+=n+1
        s.E=[]
        for e in limits:
            C.iters+=1
            a=e.copy(); b=e.copy(); b.reverse(); s.E+=[a,b]
        s.fl=[Fr(0)]*len(s.E); s.G=[[] for _ in range(n+1)]; s.sc=[0]*(n+1)
        for k,e in enumerate(s.E): s.G[e.i].append(k); C.iters+=1
    def push(s,x):
        if not s.inq[x]: s.inq[x]=True; s.q_.append(x)
    def min_cost(s):
        while s.eps>=2:
            for k in range(s.n+1): s.ce[k]=0; C.iters+=1
            for k,e in enumerate(s.E):
                C.iters+=1
                q=s.q(k)
                if q>0:
                    s.imb[e.i]-=q; s.imb[e.j]+=q; s.addf(k,q)
            for i in range(s.n+1):
                C.iters+=1
                if s.imb[i]>0: s.push(i)
            while s.q_:
                C.rounds+=1
                s.choice(s.q_[0])
                if s.imb[s.q_[0]]==0:
                    s.inq[s.q_[0]]=False; s.q_.pop(0)
            for i in range(s.n+1):
                C.iters+=1
                if s.fa[i] is not None: s.cut(i)
            s.eps=tdiv(s.eps,2)
        ans=Fr(0)
        for k,e in enumerate(s.E):
            C.iters+=1
            fn=e.fn; x=s.fl[k]
            e.fn=(lambda fn,x:lambda w:fn(w)-x*w)(fn,x)
            ans+=e.min()
        return ans/2
    def choice(s,p):
        while s.ce[p]<len(s.G[p]):
            C.iters+=1
            if s.q(s.G[p][s.ce[p]])>0:
                s.link(p); s.send(p); return
            s.ce[p]+=1
        for k in s.G[p]:
            C.iters+=1
            c=s.E[k].j
            if s.fa[c]==p: s.cut(c)
        s.sc[p]+=tdiv(s.eps,2); s.ce[p]=0
    def send(s,p):
        root=s.idx[id(s.nodes[p].find_root())]
        def push(x):
            s.nodes[p].add_way(-x); s.imb[p]-=x; s.imb[root]+=x
            if s.imb[root]>0: s.push(root)
        while p!=root:
            m=s.nodes[p].get_min()
            if s.imb[p]<m[0]: push(s.imb[p]); return
            push(m[0]); root=s.idx[id(m[1])]; s.cut(root)
    def q(s,k):
        e=s.E[k]
        num=s.sc[e.i]-s.sc[e.j]; den=2*(s.n+1)
        t=tdiv(num,den)+(1 if num-den*tdiv(num,den)>0 else 0)-1
        if t+1>e.u: return s.M-s.fl[k]
        if t<e.l: return Fr(0)
        return max(Fr(0),e.ev(t+1)-e.ev(t)-s.fl[k])
    def addf(s,k,x): s.fl[k]+=x; s.fl[k^1]=-s.fl[k]
    def link(s,p):
        k=s.G[p][s.ce[p]]; e=s.E[k]; s.fa[p]=e.j
        s.nodes[p].set_val(s.q(k)); s.nodes[p].set_fa(s.nodes[e.j])
    def cut(s,p):
        s.fa[p]=None; s.nodes[p].cut()
        k=s.G[p][s.ce[p]]; s.addf(k,s.q(k)-s.nodes[p].get_val())
def solve(n,mus,oms):
    reset()
    oms=[o.copy() for o in oms]
    if len(mus)!=n+1: return None
    for i in range(1,n+1):
        C.iters+=1
        if not mus[i].l<=mus[i].u: return None
    for o in oms:
        C.iters+=1
        if not(1<=o.i<=n and 1<=o.j<=n and o.i!=o.j and o.l<=o.u): return None
        o.pre(); o.l=mus[o.i].l-mus[o.j].u
        if not o.l<=o.u: return None
    mp={}
    for o in oms:
        C.iters+=1
        o=o.copy()
        if o.i<o.j: o.reverse()
        if (o.i,o.j) in mp:
            if mp[(o.i,o.j)].merge(o): return None
        else: mp[(o.i,o.j)]=o
    lim=[mp[k] for k in sorted(mp)]
    C.iters+=len(lim)
    for i in range(1,n+1):
        C.iters+=1
        lim.append(Lim(mus[i].l,mus[i].u,mus[i].fn,i,0))
    v=Fr(0);M=Fr(1);U=0
    for e in lim:
        C.iters+=1
        v+=max(e.ev(e.l),e.ev(e.u)); M+=max(e.ev(e.l),e.ev(e.u))-e.min(); U=max(U,e.u-e.l)
    f=Flow(n,M,U,lim); c=f.min_cost()
    return None if c>v else c
def counts(): return [C.rounds,C.steps,C.walk,C.iters,C.evals]
if __name__=='__main__':
    mus=[Lim(7,3,None),Lim(-2,3,lambda x:Fr(x-1)**2),Lim(0,4,lambda x:Fr(x-2)**2)]
    oms=[Lim(-4,-2,lambda x:Fr(2*x),1,2),Lim(0,5,lambda x:Fr(3*x*x),2,1)]
    print(solve(2,mus,oms),counts())
