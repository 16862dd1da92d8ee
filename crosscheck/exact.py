# usage: python3 exact.py SEED N -- value and counters of the Lean model and of port.py on N random instances (exact arithmetic)
import random,subprocess,sys
import os; LEAN=os.path.join(os.path.dirname(os.path.abspath(__file__)),'..','lean')
from port import *
random.seed(int(sys.argv[1])); N=int(sys.argv[2])
inst=[]
for _ in range(N):
    n=random.randint(0,6)
    R=random.choice([1,2,4,9])
    off=random.choice([0,0,0,5,-12])
    mus=[(0,0,0,0)]
    for i in range(n):
        a=random.randint(-R,R)+off;b=random.randint(-R,R)+off
        if random.random()<0.95: a,b=min(a,b),max(a,b)
        mus.append((a,b,random.randint(0,3),random.randint(-8,8)))
    oms=[]
    if n>=2:
        for _ in range(random.randint(0,2*n)):
            i,j=random.sample(range(1,n+1),2)
            a=random.randint(-R,R);b=random.randint(-R,R)+random.choice([0,R])
            if random.random()<0.97: a,b=min(a,b),max(a,b)
            oms.append((a,b,random.randint(0,3),random.randint(-8,8),i,j))
    inst.append((n,mus,oms))
f=lambda c,b:(lambda x:Fr(c*x*x+b*x,2))
py=[]
for n,mus,oms in inst:
    r=solve(n,[Lim(l,u,f(c,b)) for l,u,c,b in mus],[Lim(l,u,f(c,b),i,j) for l,u,c,b,i,j in oms])
    py.append(f"{'none' if r is None else r} {counts()}")
open('/tmp/d.txt','w').write('\n'.join(' '.join(map(str,[n,len(mus),len(oms)]+[x for t in mus for x in t]+[x for t in oms for x in t])) for n,mus,oms in inst)+'\n')
L='''import Verif.Model.SolverCost
import Mathlib.Algebra.Order.Ring.Rat
open AHO
def fn (c b : Int) : Int → Res ℚ := fun x => .ok (((c*x*x+b*x : Int) : ℚ) / 2)
def go : IO Unit := do
  for line in (← IO.FS.lines "/tmp/d.txt") do
    let a := (line.splitOn " ").toArray.map String.toInt!
    let g := fun k : Nat => a.getD k 0
    let n := (g 0).toNat
    let nm := (g 1).toNat
    let m : List (MuLimit ℚ) := (List.range nm).map fun k => ⟨g (3+4*k), g (4+4*k), fn (g (5+4*k)) (g (6+4*k))⟩
    let q := 3 + 4 * nm
    let o : List (OmegaLimit ℚ) := (List.range (g 2).toNat).map fun k => ⟨⟨g (q+6*k), g (q+6*k+1), fn (g (q+6*k+2)) (g (q+6*k+3))⟩, (g (q+6*k+4)).toNat, (g (q+6*k+5)).toNat⟩
    match ProblemSolver.runC (2^31-1) 100000 n m o with
    | .ok (c, r) => IO.println s!"{match r with | none => "none" | some v => toString v} [{c.rounds}, {c.steps}, {c.walk}, {c.iters}, {c.evals}]"
    | .error _ => IO.println "error"
#eval go
'''
open('/tmp/d.lean','w').write(L)
o=subprocess.run('lake env lean /tmp/d.lean',shell=True,cwd=LEAN,capture_output=True,text=True)
le=[l for l in o.stdout.strip().split('\n')]
if len(le)!=N: print(o.stdout[:2000],o.stderr[:500])
bad=[(k,a,b) for k,(a,b) in enumerate(zip(py,le)) if a!=b]
print(len(bad),'differences of',N,'nones',sum(p.startswith('none') for p in py)); print(bad[:3]); print(py[:3],max(py,key=lambda s:int(s.split('[')[1].split(',')[0])))
