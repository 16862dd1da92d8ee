# usage: python3 double.py SEED N [frac|tenth|wild] -- the same with double: the float of Python against binary64 of the model
import random,subprocess,sys,math
import port
import os; LEAN=os.path.join(os.path.dirname(os.path.abspath(__file__)),'..','lean')
from port import *
random.seed(int(sys.argv[1])); N=int(sys.argv[2]); mode=sys.argv[3] if len(sys.argv)>3 else 'frac'
port.Fr=lambda x=0,y=1: float(x)/y if y!=1 else float(x)
class Stop(Exception): pass
def conv(k):
    # table of k convex values
    if mode=='frac': s=sorted(random.uniform(-5,5) for _ in range(k))
    elif mode=='tenth': s=sorted(random.randint(-50,50)/10 for _ in range(k))
    else: s=sorted(random.choice([-1,1])*2.0**random.randint(-60,60) for _ in range(k))
    v=[random.uniform(-3,3) if mode!='tenth' else random.randint(-30,30)/10]
    for x in s: v.append(v[-1]+x)
    return v[:k]
inst=[]
for _ in range(N):
    n=random.randint(1,5); R=random.choice([1,2,4,6])
    mus=[(0,0,[0.0])]
    for i in range(n):
        a,b=sorted((random.randint(-R,R),random.randint(-R,R)))
        mus.append((a,b,conv(b-a+1)))
    oms=[]
    if n>=2:
        for _ in range(random.randint(0,2*n)):
            i,j=random.sample(range(1,n+1),2)
            a=random.randint(-R,R);b=random.randint(-R,R)+random.choice([0,R]); a,b=min(a,b),max(a,b)
            oms.append((a,b,conv(b-a+1),i,j))
    inst.append((n,mus,oms))
def fl(x):
    if math.isinf(x): return 'inf' if x>0 else '-inf'
    if math.isnan(x): return 'nan'
    a,b=x.as_integer_ratio(); return str(a) if b==1 else f"{a}/{b}"
py=[];skips=0;keep=[]
import signal
def h(*a): raise Stop()
signal.signal(signal.SIGALRM,h)
for n,mus,oms in inst:
    signal.setitimer(signal.ITIMER_REAL,2)
    try:
        r=solve(n,[Lim(l,u,(lambda l,t:lambda x:t[x-l])(l,t)) for l,u,t in mus],[Lim(l,u,(lambda l,t:lambda x:t[x-l])(l,t),i,j) for l,u,t,i,j in oms])
        py.append(f"{'none' if r is None else fl(r)} {counts()}"); keep.append((n,mus,oms))
    except (Stop,AssertionError,RecursionError,AttributeError,IndexError) as e: pass
    signal.setitimer(signal.ITIMER_REAL,0)
def mant(x):
    m,e=math.frexp(x); return [int(m*2**53),e-53]
def tab(l,u,t): return [l,u]+[y for x in t for y in mant(x)]
open('/tmp/dd.txt','w').write('\n'.join(' '.join(map(str,[n,len(mus),len(oms)]+[y for m in mus for y in tab(*m)]+[y for o in oms for y in tab(*o[:3])+[o[3],o[4]]])) for n,mus,oms in keep)+'\n')
L='''import Verif.Model.SolverCost
import Verif.Model.Double
open AHO
abbrev F := Flt Format.binary64
def fn (l : Int) (t : List F) : Int → Res F := fun x => if 0 ≤ x - l then match t[(x-l).toNat]? with | some v => .ok v | none => .error .callback else .error .callback
def p2 (e : Int) : ℚ := if 0 ≤ e then (2:ℚ) ^ e.toNat else 1 / (2:ℚ) ^ (-e).toNat
def rdTab (a : Array Int) (k : Nat) : (Int × Int × List F) × Nat :=
  let l := a.getD k 0
  let u := a.getD (k+1) 0
  let c := (u - l + 1).toNat
  ((l, u, (List.range c).map fun i => ⟨.fin ((a.getD (k+2+2*i) 0 : ℚ) * p2 (a.getD (k+3+2*i) 0))⟩), k + 2 + 2 * c)
def sh : F → String
  | ⟨.fin x⟩ => toString x
  | ⟨.pinf⟩ => "inf"
  | ⟨.ninf⟩ => "-inf"
  | ⟨.nan⟩ => "nan"
def go : IO Unit := do
  for line in (← IO.FS.lines "/tmp/dd.txt") do
    let a := (line.splitOn " ").toArray.map String.toInt!
    let n := (a.getD 0 0).toNat
    let mut k := 3
    let mut m : List (MuLimit F) := []
    for _ in [0:(a.getD 1 0).toNat] do
      let ((l,u,t),k') := rdTab a k
      m := m ++ [⟨l,u,fn l t⟩]
      k := k'
    let mut o : List (OmegaLimit F) := []
    for _ in [0:(a.getD 2 0).toNat] do
      let ((l,u,t),k') := rdTab a k
      o := o ++ [⟨⟨l,u,fn l t⟩, (a.getD k' 0).toNat, (a.getD (k'+1) 0).toNat⟩]
      k := k' + 2
    match ProblemSolver.runC (2^31-1) 100000 n m o with
    | .ok (c, r) => IO.println s!"{match r with | none => "none" | some v => sh v} [{c.rounds}, {c.steps}, {c.walk}, {c.iters}, {c.evals}]"
    | .error _ => IO.println "error"
#eval go
'''
open('/tmp/dd.lean','w').write(L)
o=subprocess.run('lake env lean /tmp/dd.lean',shell=True,cwd=LEAN,capture_output=True,text=True)
le=o.stdout.strip().split('\n')
if len(le)!=len(py): print(o.stdout[:2000],o.stderr[:500])
bad=[(k,a,b) for k,(a,b) in enumerate(zip(py,le)) if a!=b]
print(len(bad),'differences of',len(py),'nones',sum(p.startswith('none') for p in py)); print(bad[:3]); print(py[:2],max(py,key=lambda s:int(s.split('[')[1].split(',')[0])))
