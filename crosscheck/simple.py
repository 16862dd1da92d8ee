# transcription of test/SimpleSolver.cpp and test/CostScaling.cpp; num converts an int to the number type (Fraction or float)
class Cap(Exception): pass
class CostScaling:
    def __init__(s,num,limit=10**6): s.num=num; s.limit=limit; s.steps=0
    def costpi(s,u,e): return s.num(e[2])-s.p[u]+s.p[e[1]]
    def refine(s):
        num=s.num; N=s.N; ed=s.edge
        excess=[num(0)]*N; incp=[num(0)]*N; cur=list(s.head)
        for u in range(N):
            i=s.head[u]
            while i!=-1:
                if s.costpi(u,ed[i])<0:
                    excess[u]-=ed[i][3]; excess[ed[i][1]]+=ed[i][3]
                    ed[i^1][3]+=ed[i][3]; ed[i][3]=num(0)
                i=ed[i][0]
        vis=[0]*N; st=[]
        for u in range(N):
            if excess[u]>0: st.append(u); vis[u]=1
        def push(u,x,flow):
            ed[x][3]-=flow; ed[x^1][3]+=flow
            excess[u]-=flow; v=ed[x][1]; excess[v]+=flow
            if excess[v]>0 and vis[v]==0: st.append(v); vis[v]=1
        def modify(u):
            assert excess[u]>0
            while cur[u]!=-1:
                s.steps+=1
                if s.steps>s.limit: raise Cap()
                i=cur[u]
                if s.costpi(u,ed[i])<0:
                    c=ed[i][3]; x=excess[u]; push(u,i,x if x<c else c)
                if excess[u]==0: return
                cur[u]=ed[i][0]
            assert excess[u]>0
            s.p[u]+=s.eps/2; incp[u]+=s.eps/2
            cur[u]=s.head[u]; st.append(u); vis[u]=1
        while st:
            s.steps+=1
            if s.steps>s.limit: raise Cap()
            u=st.pop(); vis[u]=0
            if incp[u]>s.eps*3*N: return False
            modify(u)
        return True
    def mincost(s,n,arcs):
        num=s.num; s.N=n; s.edge=[]; s.head=[-1]*n; s.p=[num(0)]*n; s.tc=num(0); s.eps=num(1)
        for u,v,c,cap in arcs:
            if s.eps<c: s.eps=num(c)
            s.tc+=cap*c
            s.edge.append([s.head[u],v,c,cap]); s.head[u]=len(s.edge)-1
            s.edge.append([s.head[v],u,-c,num(0)]); s.head[v]=len(s.edge)-1
        while s.eps*n>=1:
            if not s.refine(): return False,num(0)
            s.eps=s.eps/2
        for e in s.edge: s.tc-=e[3]*e[2]
        return True,-s.tc/2
def ternary(f,l,r):
    while l<r:
        d=(r-l)//3; lm=l+d; rm=r-d
        if f(lm)<=f(rm): r=rm-1
        else: l=lm+1
    a=f(l); b=f(r); return b if b<a else a
def simple_solve(num,n,mus,oms,limit=10**6):
    # mus: list of (l,u,fn), oms: (l,u,fn,i,j)
    M=num(10**9)
    def bij(f,l,r,x):
        if x<l: return -M
        if x>=r: return M
        return f(x+1)-f(x)
    parts=[]; edge=[]; mx=num(0)
    def split(f,l,r,u,v):
        for j in range(l,r+1):
            lo=bij(f,l,r,j-1); up=bij(f,l,r,j)
            if lo>=0: edge.append((u,v,j,up-lo))
            elif up<=0: edge.append((v,u,-j,up-lo))
            else: edge.append((u,v,j,up)); edge.append((v,u,-j,-lo))
    for i in range(1,n+1):
        l,r,f=mus[i]
        if l>r: return None
        a=f(l);b=f(r); mx+=b if a<b else a
        split(f,l,r,i,0); parts.append((f,l,r))
    for l,r,f,i,j in oms:
        if l>r: return None
        a=f(l);b=f(r); mx+=b if a<b else a
        E=(lambda f,l,r: lambda x: ternary(f,max(l,x),r))(f,l,r)
        l2=min(l,mus[i][0]-mus[j][1])
        split(E,l2,r,i,j); parts.append((E,l2,r))
    cs=CostScaling(num,limit)
    ok,res=cs.mincost(n+1,edge)
    for f,l,r in parts: res+=ternary(f,l,r)
    return None if res>mx else res
