import Verif.Model.Oracle
import Verif.Model.SimpleSolver
import Verif.Proof.SafeFlow
/-!
# Memory safety of the reference programs of the tests, whatever the costs and the arithmetic

No law of arithmetic is used, and the costs need not be convex.
-/

namespace AHO
set_option linter.unusedSectionVars false

namespace Oracle
variable {D : Type}

/-- a pair after `pre_processing`: its ends are nodes, and it can be called below its upper bound -/
def PairOk (n : Nat) (e : OmegaLimit D) : Prop := e.i ≤ n ∧ e.j ≤ n ∧ ∀ x, x ≤ e.u → Safe (e.fn x) (fun _ => True)

theorem preAll_safe [LT D] [DecidableLT D] (imax : Int) (fuel n : Nat) : ∀ (os : List (OmegaLimit D)),
    (∀ o ∈ os, o.i ≤ n ∧ o.j ≤ n ∧ o.toMuLimit.Callable) → Safe (preAll imax fuel os) (fun os' => ∀ o ∈ os', PairOk n o)
  | [], _ => fun o h => by cases h
  | o :: os, ho => by
    unfold preAll
    obtain ⟨h1, h2, h3⟩ := ho o (List.mem_cons_self ..)
    refine (preProcessing_safe imax fuel h3).bind fun o' ho' => ?_
    refine (preAll_safe imax fuel n os fun o h => ho o (List.mem_cons_of_mem _ h)).bind fun os' hos => ?_
    intro q hq
    rcases List.mem_cons.1 hq with rfl | hq
    · exact ⟨by rw [ho'.1]; exact h1, by rw [ho'.2.1]; exact h2, fun x hx => ho'.2.2.2 x (by rw [← ho'.2.2.1]; exact hx)⟩
    · exact hos q hq

theorem leaf_safe [Add D] [LT D] [DecidableLT D] (imax : Int) {n : Nat} {v : Vec Int} (hv : v.size = n + 1) (ret : Option D) :
    ∀ (os : List (OmegaLimit D)) (sum : D), (∀ o ∈ os, PairOk n o) → Safe (leaf imax v ret os sum) (fun _ => True)
  | [], _, _ => trivial
  | o :: os, sum, ho => by
    unfold leaf
    obtain ⟨h1, h2, h3⟩ := ho o (List.mem_cons_self ..)
    refine (Safe.rd v _ (by omega)).bind fun a _ => (Safe.rd v _ (by omega)).bind fun b _ => (Safe.ck imax _).bind fun x _ => ?_
    split
    · trivial
    · next hu => exact (h3 x (by omega)).bind fun y _ => leaf_safe imax hv ret os _ fun o h => ho o (List.mem_cons_of_mem _ h)

theorem dfs_safe [Add D] [LT D] [DecidableLT D] (imax : Int) (fuel : Nat) {n : Nat} {Mus : List (MuLimit D)} {os : List (OmegaLimit D)}
    (hl : n < Mus.length) (hm : ∀ i m, 1 ≤ i → i ≤ n → Mus[i]? = some m → ∀ x, m.l ≤ x → x ≤ m.u → Safe (m.fn x) (fun _ => True))
    (ho : ∀ o ∈ os, PairOk n o) : ∀ (k p : Nat) (sum : D) (st : Vec Int × Option D), p + k = n → st.1.size = n + 1 →
    Safe (dfs imax fuel Mus os k p sum st) (fun r => r.1.size = n + 1 ∧ ∀ q, q ≤ p → r.1.get q = st.1.get q)
  | 0, p, sum, (v, ret), _, hv => by
    unfold dfs
    exact (leaf_safe imax hv ret os sum ho).bind fun r _ => ⟨hv, fun _ _ => rfl⟩
  | k + 1, p, sum, (v, ret), hk, hv => by
    unfold dfs
    refine (Safe.listRd (by omega)).bind fun m hmm => ?_
    refine (Safe.wr v _ _ (by have : v.size = n + 1 := hv; omega)).bind fun w hw => ?_
    have hw1 : w.size = n + 1 := by rw [hw]; exact hv
    refine (Safe.whileLoop (P := fun s : Vec Int × Option D => s.1.size = n + 1 ∧ m.l ≤ s.1.get (p + 1) ∧ ∀ q, q ≤ p → s.1.get q = v.get q)
      (fun s hs => ?_) (fun s hs hc => ?_) fuel (w, ret) ⟨hw1, ?_, fun q hq => ?_⟩).mono fun r hr => ⟨hr.1, hr.2.2⟩
    · exact (Safe.rd _ _ (by omega)).bind fun i _ => trivial
    · obtain ⟨h1, h2, h3⟩ := hs
      have hb : p + 1 < s.1.size := by omega
      have hle : s.1.get (p + 1) ≤ m.u := by
        unfold Vec.rd at hc
        rw [if_pos hb] at hc
        injection hc with hc
        exact of_decide_eq_true hc
      refine (Safe.rd _ _ hb).bind fun i hi => ?_
      subst hi
      refine (hm (p + 1) m (by omega) (by omega) (by rw [hmm.1]; exact List.getElem?_eq_getElem _) _ h2 hle).bind fun y _ => ?_
      refine (dfs_safe imax fuel hl hm ho k (p + 1) (sum + y) s (by omega) h1).bind fun s' hs' => ?_
      obtain ⟨g1, g2⟩ := hs'
      refine (Safe.rd _ _ (by omega)).bind fun i hi => (Safe.ck imax _).bind fun i' hi' => (Safe.wr _ _ _ (by omega)).bind fun v' hv' => ?_
      refine ⟨by rw [hv']; exact g1, ?_, fun q hq => ?_⟩
      · rw [hv']
        show m.l ≤ if p + 1 = p + 1 then i' else _
        rw [if_pos rfl]
        have := g2 (p + 1) (Nat.le_refl _)
        omega
      · rw [hv']
        show (if q = p + 1 then i' else s'.1.get q) = _
        rw [if_neg (by omega), g2 q (by omega), h3 q hq]
    · rw [hw]
      show m.l ≤ if p + 1 = p + 1 then m.l else _
      rw [if_pos rfl]
      exact Int.le_refl _
    · rw [hw]
      show (if q = p + 1 then m.l else v.get q) = _
      rw [if_neg (by omega)]

theorem bfSolve_safe [Zero D] [Add D] [LT D] [DecidableLT D] (imax : Int) (fuel : Nat) {n : Nat} {Mus : List (MuLimit D)}
    {os : List (OmegaLimit D)} (hl : n < Mus.length)
    (hm : ∀ i m, 1 ≤ i → i ≤ n → Mus[i]? = some m → ∀ x, m.l ≤ x → x ≤ m.u → Safe (m.fn x) (fun _ => True))
    (ho : ∀ o ∈ os, o.i ≤ n ∧ o.j ≤ n ∧ o.toMuLimit.Callable) : Safe (bfSolve imax fuel n Mus os) (fun _ => True) := by
  unfold bfSolve
  refine (preAll_safe imax fuel n os ho).bind fun os' hos => ?_
  exact (dfs_safe imax fuel hl hm hos n 0 0 (Vec.replicate (n + 1) 0, none) (by omega) rfl).bind fun r _ => trivial

end Oracle

namespace CostScaling
variable {D : Type}

/-- the lists of edges: indices are in range -/
structure EdgesOk (N : Nat) (head : Vec (Option Nat)) (edge : Vec (CArc D)) : Prop where
  even : edge.size % 2 = 0
  headS : head.size = N
  head : ∀ u i, u < N → head.get u = some i → i < edge.size
  next : ∀ i j, i < edge.size → (edge.get i).next = some j → j < edge.size
  v : ∀ i, i < edge.size → (edge.get i).v < N

/-- the invariant of the object -/
structure CsOk (N : Nat) (s : CostScaling D) : Prop where
  hN : s.N = N
  edges : EdgesOk N s.head s.edge
  p : s.p.size = N

/-- the invariant of `Refine` -/
structure RefOk (N : Nat) (s : Refining D) : Prop where
  cs : CsOk N s.toCostScaling
  excess : s.excess.size = N
  incp : s.incp.size = N
  cur : s.current_edge.size = N
  curV : ∀ u i, u < N → s.current_edge.get u = some i → i < s.edge.size
  vis : s.vis.size = N
  st : ∀ u ∈ s.st, u < N

theorem EdgesOk.x_lt {N : Nat} {head : Vec (Option Nat)} {edge : Vec (CArc D)} (o : EdgesOk N head edge) {i : Nat} (h : i < edge.size) :
    i ^^^ 1 < edge.size := by
  have h0 := o.even
  have h1 : (i ^^^ 1) / 2 = i / 2 := by rw [Nat.xor_div_two]; simp
  omega

theorem EdgesOk.set {N : Nat} {head : Vec (Option Nat)} {edge : Vec (CArc D)} (o : EdgesOk N head edge) {i : Nat} (c : D) :
    EdgesOk N head (edge.set i { edge.get i with capacity := c }) := by
  refine ⟨o.even, o.headS, o.head, fun k j hk h => o.next k j hk ?_, fun k hk => ?_⟩
  · by_cases hki : k = i
    · subst hki
      simpa [Vec.set] using h
    · simpa [Vec.set, hki] using h
  · by_cases hki : k = i
    · subst hki
      simpa [Vec.set] using o.v k hk
    · simpa [Vec.set, hki] using o.v k hk

theorem setCapacity_safe {N : Nat} {head : Vec (Option Nat)} {edge : Vec (CArc D)} (o : EdgesOk N head edge) {i : Nat} (h : i < edge.size) (c : D) :
    Safe (setCapacity edge i c) (fun e => e.size = edge.size ∧ EdgesOk N head e) := by
  unfold setCapacity
  refine (Safe.rd _ _ h).bind fun e he => ?_
  subst he
  exact (Safe.wr _ _ _ h).mono fun e' he' => by
    subst he'
    exact ⟨rfl, o.set c⟩

section refine
variable [Zero D] [Add D] [Sub D] [Mul D] [Div D] [IntCast D] [LT D] [DecidableLT D] [BEq D]
variable {N : Nat}

theorem costPi_safe {s : CostScaling D} (o : CsOk N s) {u : Nat} (hu : u < N) {e : CArc D} (he : e.v < N) :
    Safe (s.costPi u e) (fun _ => True) := by
  have := o.p
  unfold costPi
  exact (Safe.rd _ _ (by omega)).bind fun a _ => (Safe.rd _ _ (by omega)).bind fun b _ => trivial

theorem RefOk.update {s : Refining D} (o : RefOk N s) {edge : Vec (CArc D)} {excess : Vec D} (h1 : edge.size = s.edge.size)
    (h2 : EdgesOk N s.head edge) (h3 : excess.size = N) : RefOk N { s with edge := edge, excess := excess } :=
  ⟨⟨o.cs.hN, h2, o.cs.p⟩, h3, o.incp, o.cur, fun u i hu h => by
    have := o.curV u i hu h
    show i < edge.size
    omega, o.vis, o.st⟩

theorem RefOk.pushSt {s : Refining D} (o : RefOk N s) {vis : Vec Bool} (h1 : vis.size = N) {u : Nat} (hu : u < N) :
    RefOk N { s with st := u :: s.st, vis := vis } :=
  ⟨o.cs, o.excess, o.incp, o.cur, o.curV, h1, fun w hw => by
    rcases List.mem_cons.1 hw with rfl | hw
    · exact hu
    · exact o.st w hw⟩

theorem saturate_safe {s : Refining D} (o : RefOk N s) {u i : Nat} (hu : u < N) (hi : i < s.edge.size) :
    Safe (saturate u i s) (fun s' => RefOk N s' ∧ s'.edge.size = s.edge.size ∧ s'.head = s.head) := by
  unfold saturate
  have hx := o.excess
  refine (Safe.rd _ _ hi).bind fun e he => ?_
  have hv : e.v < N := by rw [he]; exact o.cs.edges.v i hi
  refine (costPi_safe o.cs hu hv).bind fun w _ => ?_
  split
  · refine (Safe.rd _ _ (by omega)).bind fun a _ => (Safe.wr _ _ _ (by omega)).bind fun x1 h1 => ?_
    have h1 : x1.size = N := by rw [h1]; exact hx
    refine (Safe.rd _ _ (by omega)).bind fun b _ => (Safe.wr _ _ _ (by omega)).bind fun x2 h2 => ?_
    have h2 : x2.size = N := by rw [h2]; exact h1
    refine (Safe.rd _ _ (o.cs.edges.x_lt hi)).bind fun r _ => ?_
    refine (setCapacity_safe o.cs.edges (o.cs.edges.x_lt hi) _).bind fun e1 he1 => ?_
    refine (setCapacity_safe he1.2 (i := i) (by omega) _).bind fun e2 he2 => ?_
    exact ⟨o.update (by omega) he2.2 h2, by show e2.size = _; omega, rfl⟩
  · exact ⟨o, rfl, rfl⟩

theorem saturateNode_safe (fuel : Nat) {s : Refining D} (o : RefOk N s) {u : Nat} (hu : u < N) :
    Safe (saturateNode fuel s u) (RefOk N) := by
  unfold saturateNode
  have := o.cs.edges.headS
  refine (Safe.rd _ _ (by omega)).bind fun h hh => ?_
  refine (Safe.whileLoop (P := fun x : Refining D × Option Nat => RefOk N x.1 ∧ ∀ i, x.2 = some i → i < x.1.edge.size) (fun s hs => Safe.ok trivial)
    (fun x hx hc => ?_) fuel (s, h) ⟨o, fun i hi => o.cs.edges.head u i hu (by rw [← hh]; exact hi)⟩).bind fun r hr => hr.1
  obtain ⟨s, c⟩ := x
  obtain ⟨o, hc⟩ := hx
  cases c with
  | none => exact ⟨o, hc⟩
  | some i =>
    have hi := hc i rfl
    refine (saturate_safe o hu hi).bind fun s' hs' => ?_
    obtain ⟨o', h1, _⟩ := hs'
    have hi' : i < s'.edge.size := by omega
    refine (Safe.rd _ _ hi').bind fun e he => ?_
    exact ⟨o', fun j hj => o'.cs.edges.next i j hi' (by rw [← he]; exact hj)⟩

theorem pushActive_safe {s : Refining D} (o : RefOk N s) {u : Nat} (hu : u < N) : Safe (pushActive s u) (RefOk N) := by
  unfold pushActive
  have := o.excess
  have hv := o.vis
  refine (Safe.rd _ _ (by omega)).bind fun x _ => ?_
  split
  · refine (Safe.wr _ _ _ (by omega)).bind fun w hw => ?_
    exact o.pushSt (by rw [hw]; exact hv) hu
  · exact o

theorem push_safe {s : Refining D} (o : RefOk N s) {u x : Nat} (hu : u < N) (hx : x < s.edge.size) (flow : D) :
    Safe (push u x flow s) (fun s' => RefOk N s' ∧ s'.edge.size = s.edge.size) := by
  unfold push
  have hex := o.excess
  have hvis := o.vis
  refine (Safe.rd _ _ hx).bind fun e he => ?_
  have hv : e.v < N := by rw [he]; exact o.cs.edges.v x hx
  refine (setCapacity_safe o.cs.edges hx _).bind fun e1 he1 => ?_
  have hx1 : x ^^^ 1 < e1.size := he1.1 ▸ o.cs.edges.x_lt hx
  refine (Safe.rd _ _ hx1).bind fun r _ => (setCapacity_safe he1.2 hx1 _).bind fun e2 he2 => ?_
  refine (Safe.rd _ _ (by omega)).bind fun a _ => (Safe.wr _ _ _ (by omega)).bind fun x1 h1 => ?_
  have h1 : x1.size = N := by rw [h1]; exact hex
  refine (Safe.rd _ _ (by omega)).bind fun b _ => (Safe.wr _ _ _ (by omega)).bind fun x2 h2 => ?_
  have h2 : x2.size = N := by rw [h2]; exact h1
  have o' := o.update (edge := e2) (excess := x2) (by omega) he2.2 h2
  refine (Safe.rd _ _ (by omega)).bind fun c _ => (Safe.rd _ _ (by show e.v < s.vis.size; omega)).bind fun d _ => ?_
  split
  · refine (Safe.wr _ _ _ (by show e.v < s.vis.size; omega)).bind fun w hw => ?_
    refine ⟨o'.pushSt (by rw [hw]; exact hvis) hv, ?_⟩
    show e2.size = _
    omega
  · refine ⟨o', ?_⟩
    show e2.size = _
    omega

theorem relabel_safe {s : Refining D} (o : RefOk N s) {u : Nat} (hu : u < N) : Safe (relabel u s) (RefOk N) := by
  unfold relabel
  have hp := o.cs.p
  have hi := o.incp
  refine (Safe.rd _ _ (by omega)).bind fun a _ => (Safe.wr _ _ _ (by omega)).bind fun p hp' => ?_
  refine (Safe.rd _ _ (by omega)).bind fun b _ => (Safe.wr _ _ _ (by omega)).bind fun q hq' => ?_
  exact ⟨⟨o.cs.hN, o.cs.edges, by rw [hp']; exact hp⟩, o.excess, by rw [hq']; exact hi, o.cur, o.curV, o.vis, o.st⟩

theorem RefOk.setCur {s : Refining D} (o : RefOk N s) {cur : Vec (Option Nat)} {u : Nat} {x : Option Nat} (h : cur = s.current_edge.set u x)
    (hx : ∀ i, x = some i → i < s.edge.size) : RefOk N { s with current_edge := cur } := by
  refine ⟨o.cs, o.excess, o.incp, by rw [h]; exact o.cur, fun w i hw hi => ?_, o.vis, o.st⟩
  subst h
  by_cases hwu : w = u
  · subst hwu
    exact hx i (by simpa [Vec.set] using hi)
  · exact o.curV w i hw (by simpa [Vec.set, hwu] using hi)

theorem discharge_safe {u : Nat} (hu : u < N) : ∀ (fuel : Nat) {s : Refining D}, RefOk N s → Safe (discharge u fuel s) (fun r => RefOk N r.1)
  | 0, _, _ => .fuel
  | fuel + 1, s, o => by
    unfold discharge
    have hcs := o.cur
    refine (Safe.rd _ _ (by omega)).bind fun c hc => ?_
    cases c with
    | none => exact o
    | some i =>
      have hi : i < s.edge.size := o.curV u i hu hc.symm
      refine (Safe.rd _ _ hi).bind fun e he => ?_
      have hv : e.v < N := by rw [he]; exact o.cs.edges.v i hi
      refine (costPi_safe o.cs hu hv).bind fun w _ => ?_
      have hrest : ∀ s' : Refining D, RefOk N s' → i < s'.edge.size → Safe (do
          let x ← s'.excess.rd u
          if x == 0 then .ok (s', true)
          else do
            let e ← s'.edge.rd i
            let cur ← s'.current_edge.wr u e.next
            discharge u fuel { s' with current_edge := cur }) (fun r => RefOk N r.1) := by
        intro s' o' hi'
        have h1 := o'.excess
        have h2 := o'.cur
        refine (Safe.rd _ _ (by omega)).bind fun x _ => ?_
        split
        · exact o'
        · refine (Safe.rd _ _ hi').bind fun e he => (Safe.wr _ _ _ (by omega)).bind fun cur hcur => ?_
          exact discharge_safe hu fuel (o'.setCur hcur fun j hj => o'.cs.edges.next i j hi' (by rw [← he]; exact hj))
      have hxs := o.excess
      by_cases hw : w < 0
      · simp only [if_pos hw]
        exact (Safe.rd s.excess u (by omega)).bind fun x _ => (push_safe o hu hi _).bind fun s' hs' => hrest s' hs'.1 (by omega)
      · simp only [if_neg hw]
        exact hrest s o hi

theorem modify_safe (fuel : Nat) {u : Nat} (hu : u < N) {s : Refining D} (o : RefOk N s) : Safe (modify fuel u s) (RefOk N) := by
  unfold modify
  have hx := o.excess
  refine (Safe.rd _ _ (by omega)).bind fun x _ => ?_
  split
  · refine (discharge_safe hu fuel o).bind fun r hr => ?_
    obtain ⟨s', ret⟩ := r
    dsimp only at hr
    cases ret with
    | true => exact hr
    | false =>
      have hx' := hr.excess
      refine (Safe.rd _ _ (by omega)).bind fun x _ => ?_
      split
      · refine (relabel_safe hr hu).bind fun s2 o2 => ?_
        have h1 := o2.cs.edges.headS
        have h2 := o2.cur
        have h3 := o2.vis
        refine (Safe.rd _ _ (by omega)).bind fun h hh => (Safe.wr _ _ _ (by omega)).bind fun cur hcur =>
          (Safe.wr _ _ _ (by omega)).bind fun vis hvis => ?_
        exact (o2.setCur hcur fun i hi => o2.cs.edges.head u i hu (by rw [← hh]; exact hi)).pushSt (by rw [hvis]; exact h3) hu
      · exact .assertFail
  · exact .assertFail

theorem refineLoop_safe (fuel : Nat) : ∀ (k : Nat) {s : Refining D}, RefOk N s → Safe (refineLoop fuel k s) (fun r => RefOk N r.1)
  | 0, _, _ => .fuel
  | k + 1, s, o => by
    unfold refineLoop
    split
    · exact o
    · next u st hst =>
      have hu : u < N := o.st u (by rw [hst]; exact List.mem_cons_self ..)
      have hv := o.vis
      have hi := o.incp
      refine (Safe.wr _ _ _ (by omega)).bind fun vis hvis => ?_
      have o' : RefOk N { s with st := st, vis := vis } :=
        ⟨o.cs, o.excess, o.incp, o.cur, o.curV, by rw [hvis]; exact hv, fun w hw => o.st w (by rw [hst]; exact List.mem_cons_of_mem _ hw)⟩
      refine (Safe.rd _ _ (by show u < s.incp.size; omega)).bind fun a _ => ?_
      split
      · exact o'
      · exact (modify_safe fuel hu o').bind fun s' hs' => refineLoop_safe fuel k hs'

theorem refine_safe (fuel : Nat) {s : CostScaling D} (o : CsOk N s) : Safe (refine fuel s) (fun r => CsOk N r.1) := by
  unfold refine
  have hN := o.hN
  have o0 : RefOk N ({ s with
      excess := Vec.replicate s.N 0
      incp := Vec.replicate s.N 0
      current_edge := s.head
      vis := Vec.replicate s.N false
      st := [] } : Refining D) :=
    ⟨o, hN, hN, o.edges.headS, fun u i hu h => o.edges.head u i hu h, hN, fun u h => by cases h⟩
  refine (Safe.forRange s.N 0 _ o0 fun r u _ h2 hr => saturateNode_safe fuel hr (by omega)).bind fun r hr => ?_
  refine (Safe.forRange s.N 0 _ hr fun r u _ h2 hr => pushActive_safe hr (by omega)).bind fun r hr => ?_
  exact (refineLoop_safe fuel fuel hr).bind fun r hr => hr.cs

end refine

/-- an object during `Init`: an edge is inserted before its reverse edge -/
structure InitOk (N : Nat) (s : CostScaling D) : Prop where
  hN : s.N = N
  len : s.len = s.edge.size - 1
  headS : s.head.size = N
  head : ∀ u i, u < N → s.head.get u = some i → i < s.edge.size
  next : ∀ i j, i < s.edge.size → (s.edge.get i).next = some j → j < s.edge.size
  v : ∀ i, i < s.edge.size → (s.edge.get i).v < N

theorem addEdge_safe {N : Nat} (imax : Int) {s : CostScaling D} (o : InitOk N s) {u v : Nat} (hu : u < N) (hv : v < N) (c : Int) (cap : D) :
    Safe (addEdge imax u v c cap s) (fun s' => InitOk N s' ∧ s'.edge.size = s.edge.size + 1) := by
  unfold addEdge
  have h1 := o.headS
  refine (Safe.rd _ _ (by omega)).bind fun h hh => (Safe.ck imax _).bind fun len hl => (Safe.wr _ _ _ (by omega)).bind fun head hhead => ?_
  have h2 := o.len
  have hlen : len = s.edge.size := by omega
  subst hhead
  refine ⟨⟨o.hN, ?_, h1, fun w i hw hi => ?_, fun i j hi hj => ?_, fun i hi => ?_⟩, rfl⟩
  · show len = ((s.edge.size + 1 : Nat) : Int) - 1
    omega
  · show i < s.edge.size + 1
    by_cases hwu : w = u
    · subst hwu
      have : some len.toNat = some i := by simpa [Vec.set] using hi
      cases this
      omega
    · exact Nat.lt_succ_of_lt (o.head w i hw (by simpa [Vec.set, hwu] using hi))
  · show j < s.edge.size + 1
    have hi : i < s.edge.size + 1 := hi
    by_cases hie : i = s.edge.size
    · subst hie
      have : h = some j := by simpa [Vec.push] using hj
      exact Nat.lt_succ_of_lt (o.head u j hu (by rw [← hh]; exact this))
    · exact Nat.lt_succ_of_lt (o.next i j (by omega) (by simpa [Vec.push, hie] using hj))
  · have hi : i < s.edge.size + 1 := hi
    by_cases hie : i = s.edge.size
    · subst hie
      simpa [Vec.push] using hv
    · simpa [Vec.push, hie] using o.v i (by omega)

section
variable [Zero D] [One D] [Add D] [Sub D] [Neg D] [Mul D] [Div D] [IntCast D] [LT D] [LE D] [DecidableLT D] [DecidableLE D] [BEq D]

theorem initEdges_safe {N : Nat} (imax : Int) : ∀ (arc : List (InputEdge D)) {s : CostScaling D}, (∀ a ∈ arc, a.u < N ∧ a.v < N) →
    InitOk N s → s.edge.size % 2 = 0 → Safe (arc.foldlM (initEdge imax) s) (fun s' => InitOk N s' ∧ s'.edge.size % 2 = 0)
  | [], _, _, o, he => ⟨o, he⟩
  | a :: arc, s, ha, o, he => by
    rw [List.foldlM_cons]
    obtain ⟨hu, hv⟩ := ha a (List.mem_cons_self ..)
    refine Safe.bind (P := fun s' => InitOk N s' ∧ s'.edge.size % 2 = 0) ?_ fun s' hs' =>
      initEdges_safe imax arc (fun b hb => ha b (List.mem_cons_of_mem _ hb)) hs'.1 hs'.2
    unfold initEdge
    have o' : InitOk N { s with epsilon := dmax s.epsilon (a.cost : D), total_cost := s.total_cost + a.capacity * (a.cost : D) } :=
      ⟨o.hN, o.len, o.headS, o.head, o.next, o.v⟩
    refine (addEdge_safe imax o' hu hv _ _).bind fun s1 h1 => (Safe.ck imax _).bind fun c _ => ?_
    refine (addEdge_safe imax h1.1 hv hu _ _).mono fun s2 h2 => ⟨h2.1, ?_⟩
    have e1 := h1.2
    have e2 := h2.2
    dsimp only at e1
    omega

theorem init_safe {N : Nat} (imax : Int) {arc : List (InputEdge D)} (ha : ∀ a ∈ arc, a.u < N ∧ a.v < N) :
    Safe (init imax N arc) (CsOk N) := by
  unfold init
  refine (initEdges_safe imax arc ha (s := ⟨N, 1, Vec.replicate 0 0, Vec.replicate N none, Vec.replicate 0 ⟨none, 0, 0, 0⟩, -1, 0⟩) ⟨rfl, rfl, rfl, fun u i _ h => ?_, fun i j hi => ?_, fun i hi => ?_⟩ rfl).bind
    fun s hs => ⟨hs.1.hN, ⟨hs.2, hs.1.headS, hs.1.head, hs.1.next, hs.1.v⟩, rfl⟩
  · cases h
  · exact absurd hi (Nat.not_lt_zero _)
  · exact absurd hi (Nat.not_lt_zero _)

theorem scale_safe {N : Nat} (fuel : Nat) : ∀ (k : Nat) {s : CostScaling D}, CsOk N s → Safe (scale fuel k s) (fun _ => True)
  | 0, _, _ => .fuel
  | k + 1, s, o => by
    unfold scale
    split
    · refine (refine_safe fuel o).bind fun r hr => ?_
      obtain ⟨s', b⟩ := r
      cases b with
      | true => exact scale_safe fuel k ⟨hr.hN, hr.edges, hr.p⟩
      | false => trivial
    · trivial

theorem minCost_safe {N : Nat} (imax : Int) (fuel : Nat) {arc : List (InputEdge D)} (ha : ∀ a ∈ arc, a.u < N ∧ a.v < N) :
    Safe (minCost imax fuel N arc) (fun _ => True) := by
  unfold minCost
  refine (init_safe imax ha).bind fun s hs => (scale_safe fuel fuel hs).bind fun r _ => ?_
  obtain ⟨s', b⟩ := r
  cases b <;> trivial

end
end CostScaling

namespace SimpleSolver
variable {D : Type} [Zero D] [One D] [Add D] [Sub D] [Neg D] [Mul D] [Div D] [IntCast D] [LT D] [LE D] [DecidableLT D]
  [DecidableLE D] [BEq D]

/-- the function can be called from `l` to `r` -/
def On (f : Fn D) (l r : Int) : Prop := ∀ x, l ≤ x → x ≤ r → Safe (f x) (fun _ => True)

theorem ternary_safe (imax : Int) {f : Fn D} : ∀ (fuel : Nat) {l r : Int}, l ≤ r → On f l r → Safe (ternary imax f fuel l r) (fun _ => True)
  | 0, _, _, _, _ => .fuel
  | fuel + 1, l, r, hlr, hf => by
    unfold ternary
    split
    · next h =>
      refine (Safe.ck imax _).bind fun d hd => (Safe.ck imax _).bind fun lm hlm => (Safe.ck imax _).bind fun rm hrm => ?_
      have hd3 : d.tdiv 3 = d / 3 := Int.tdiv_eq_ediv_of_nonneg (by omega)
      rw [hd3] at hlm hrm
      refine (hf lm (by omega) (by omega)).bind fun a _ => (hf rm (by omega) (by omega)).bind fun b _ => ?_
      split
      · refine (Safe.ck imax _).bind fun r' hr' => ternary_safe imax fuel (by omega) fun x h1 h2 => hf x h1 (by omega)
      · refine (Safe.ck imax _).bind fun l' hl' => ternary_safe imax fuel (by omega) fun x h1 h2 => hf x (by omega) h2
    · exact (hf l (by omega) hlr).bind fun a _ => (hf r hlr (by omega)).bind fun b _ => trivial

theorem suffixMin_safe (imax : Int) (fuel : Nat) {e : OmegaLimit D} (h : e.toMuLimit.Callable) (l : Int) : On (suffixMin imax fuel e) l e.u := by
  intro x _ hx
  unfold suffixMin
  exact ternary_safe imax fuel (Int.max_le.2 ⟨h.1, hx⟩) fun y h1 h2 => h.2 y (by omega) h2

theorem bij_safe (imax : Int) {f : Fn D} {l r : Int} (hf : On f l r) (x : Int) : Safe (bij imax f l r x) (fun _ => True) := by
  unfold bij
  split
  · trivial
  · split
    · trivial
    · exact (Safe.ck imax _).bind fun x1 h1 => (hf x1 (by omega) (by omega)).bind fun a _ => (hf x (by omega) (by omega)).bind fun b _ => trivial

/-- the ends of the edges are nodes -/
def Ends (N : Nat) (es : List (InputEdge D)) : Prop := ∀ a ∈ es, a.u < N ∧ a.v < N

theorem splitAt_safe (imax : Int) {f : Fn D} {l r : Int} (hf : On f l r) {N u v : Nat} (hu : u < N) (hv : v < N) (j : Int) :
    Safe (splitAt imax f l r u v j) (Ends N) := by
  unfold splitAt
  refine (Safe.ck imax _).bind fun j1 _ => (bij_safe imax hf j1).bind fun lo _ => (bij_safe imax hf j).bind fun up _ => ?_
  split
  · intro a ha; cases List.mem_singleton.1 ha; exact ⟨hu, hv⟩
  · refine (Safe.ck imax _).bind fun nj _ => ?_
    split
    · intro a ha; cases List.mem_singleton.1 ha; exact ⟨hv, hu⟩
    · intro a ha
      rcases List.mem_cons.1 ha with rfl | ha
      · exact ⟨hu, hv⟩
      · cases List.mem_singleton.1 ha; exact ⟨hv, hu⟩

theorem split_safe (imax : Int) (fuel : Nat) {f : Fn D} {l r : Int} (hf : On f l r) {N u v : Nat} (hu : u < N) (hv : v < N)
    {es : List (InputEdge D)} (he : Ends N es) : Safe (split imax fuel f l r u v es) (Ends N) := by
  unfold split
  refine (Safe.whileLoop (P := fun s : Int × List (InputEdge D) => Ends N s.2) (fun _ _ => Safe.ok trivial) (fun s hs _ => ?_) fuel (l, es) he).bind
    fun s hs => hs
  refine (splitAt_safe imax hf hu hv s.1).bind fun es' h' => (Safe.ck imax _).bind fun j _ => ?_
  intro a ha
  rcases List.mem_append.1 ha with ha | ha
  · exact hs a ha
  · exact h' a ha

/-- the invariant of `Solve` -/
structure StateOk (N : Nat) (s : State D) : Prop where
  edge : Ends N s.edge
  parts : ∀ q ∈ s.parts, q.2.1 ≤ q.2.2 ∧ On q.1 q.2.1 q.2.2

theorem nodes_safe (imax : Int) (fuel : Nat) {n : Nat} {node : List (MuLimit D)} (hl : n < node.length)
    (hm : ∀ i m, 1 ≤ i → i ≤ n → node[i]? = some m → On m.fn m.l m.u) : ∀ (cnt i : Nat) {s : State D}, 1 ≤ i → i + cnt = n + 1 → StateOk (n + 1) s →
    Safe (nodes imax fuel node cnt i s) (fun r => ∀ s', r = some s' → StateOk (n + 1) s')
  | 0, _, s, _, _, o => by intro s' h; cases h; exact o
  | cnt + 1, i, s, h1, hi, o => by
    unfold nodes
    refine (Safe.listRd (by omega)).bind fun e he => ?_
    split
    · intro s' h; cases h
    · next hlu =>
      have hf := hm i e h1 (by omega) (by rw [he.1]; exact List.getElem?_eq_getElem _)
      refine (hf e.l (by omega) (by omega)).bind fun a _ => (hf e.u (by omega) (by omega)).bind fun b _ => ?_
      refine (split_safe imax fuel hf (by omega) (by omega) o.edge).bind fun es hes => ?_
      refine nodes_safe imax fuel hl hm cnt (i + 1) (by omega) (by omega) ⟨hes, fun q hq => ?_⟩
      rcases List.mem_append.1 hq with hq | hq
      · exact o.parts q hq
      · cases List.mem_singleton.1 hq
        exact ⟨by show e.l ≤ e.u; omega, hf⟩

theorem pairs_safe (imax : Int) (fuel : Nat) {n : Nat} {node : List (MuLimit D)} (hl : n < node.length) : ∀ (os : List (OmegaLimit D)) {s : State D},
    (∀ o ∈ os, o.i ≤ n ∧ o.j ≤ n ∧ On o.fn o.l o.u) → StateOk (n + 1) s →
    Safe (pairs imax fuel node os s) (fun r => ∀ s', r = some s' → StateOk (n + 1) s')
  | [], s, _, o => by intro s' h; cases h; exact o
  | e :: rest, s, ho, o => by
    unfold pairs
    obtain ⟨h1, h2, hf⟩ := ho e (List.mem_cons_self ..)
    split
    · intro s' h; cases h
    · next hlu =>
      have hc : e.toMuLimit.Callable := ⟨by omega, hf⟩
      refine (hf e.l (by omega) (by omega)).bind fun a _ => (hf e.u (by omega) (by omega)).bind fun b _ => ?_
      refine (Safe.listRd (by omega)).bind fun mi _ => (Safe.listRd (by omega)).bind fun mj _ => (Safe.ck imax _).bind fun d _ => ?_
      refine (Safe.ck imax _).bind fun _ _ => (Safe.ck imax _).bind fun _ _ => ?_
      have hon := suffixMin_safe imax fuel hc (min e.l d)
      refine (split_safe imax fuel hon (by omega) (by omega) o.edge).bind fun es hes => ?_
      refine pairs_safe imax fuel hl rest (fun q hq => ho q (List.mem_cons_of_mem _ hq)) ⟨hes, fun q hq => ?_⟩
      rcases List.mem_append.1 hq with hq | hq
      · exact o.parts q hq
      · cases List.mem_singleton.1 hq
        exact ⟨by show min e.l d ≤ e.u; omega, hon⟩

theorem addMinima_safe (imax : Int) (fuel : Nat) : ∀ (ps : List (Fn D × Int × Int)) (res : D), (∀ q ∈ ps, q.2.1 ≤ q.2.2 ∧ On q.1 q.2.1 q.2.2) →
    Safe (addMinima imax fuel ps res) (fun _ => True)
  | [], _, _ => trivial
  | (f, l, r) :: ps, res, h => by
    unfold addMinima
    obtain ⟨h1, h2⟩ := h (f, l, r) (List.mem_cons_self ..)
    exact (ternary_safe imax fuel h1 h2).bind fun m _ => addMinima_safe imax fuel ps _ fun q hq => h q (List.mem_cons_of_mem _ hq)

theorem solve_safe (imax : Int) (fuel : Nat) {n : Nat} {node : List (MuLimit D)} {os : List (OmegaLimit D)} (hl : n < node.length)
    (hm : ∀ i m, 1 ≤ i → i ≤ n → node[i]? = some m → On m.fn m.l m.u) (ho : ∀ o ∈ os, o.i ≤ n ∧ o.j ≤ n ∧ On o.fn o.l o.u) :
    Safe (solve imax fuel n node os) (fun _ => True) := by
  unfold solve
  refine (nodes_safe imax fuel hl hm n 1 (s := ⟨[], [], 0⟩) (Nat.le_refl _) (by omega)
    ⟨fun a h => (by cases h), fun q h => (by cases h)⟩).bind fun r hr => ?_
  cases r with
  | none => trivial
  | some s =>
    refine (pairs_safe imax fuel hl os ho (hr s rfl)).bind fun r hr => ?_
    cases r with
    | none => trivial
    | some s =>
      have o := hr s rfl
      refine (Safe.ck imax _).bind fun n1 hn1 => ?_
      have hN : n1.toNat = n + 1 := by omega
      rw [hN]
      refine (CostScaling.minCost_safe imax fuel o.edge).bind fun r _ => ?_
      refine (addMinima_safe imax fuel s.parts r.2 o.parts).bind fun res _ => ?_
      split <;> trivial

end SimpleSolver
end AHO
