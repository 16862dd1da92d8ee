import Verif.Proof.CSScale
import Verif.Proof.Dual
/-!
# `CostScaling::Init` and `CostScaling::MinCost`
-/

namespace AHO.CS
open AHO CostScaling
set_option linter.unusedSectionVars false

theorem x_even (k : Nat) : (2 * k) ^^^ 1 = 2 * k + 1 := Flow.two_xor k

theorem x_odd (k : Nat) : (2 * k + 1) ^^^ 1 = 2 * k := by rw [← x_even, x_x]

theorem two_cases (e : Nat) : ∃ k, e = 2 * k ∨ e = 2 * k + 1 := ⟨e / 2, by omega⟩

/-- the edges below `m` at node `u`, last first -/
def adjTo (src : Nat → Nat) (m u : Nat) : List Nat := ((List.range m).filter (fun e => src e = u)).reverse

theorem adjTo_succ (src : Nat → Nat) (m u : Nat) :
    adjTo src (m + 1) u = if src m = u then m :: adjTo src m u else adjTo src m u := by
  unfold adjTo
  rw [List.range_succ, List.filter_append]
  by_cases h : src m = u
  · rw [if_pos h]; simp [h]
  · rw [if_neg h]; simp [h]

theorem mem_adjTo {src : Nat → Nat} {m u e : Nat} : e ∈ adjTo src m u ↔ e < m ∧ src e = u := by
  simp [adjTo]

theorem adjTo_chain (src : Nat → Nat) (u : Nat) (m : Nat) :
    Chain (fun e => (adjTo src e (src e)).head?) (adjTo src m u).head? (adjTo src m u) := by
  induction m with
  | zero => rfl
  | succ m ih =>
    rw [adjTo_succ]
    by_cases h : src m = u
    · rw [if_pos h]
      refine ⟨rfl, ?_⟩
      dsimp only
      rw [h]; exact ih
    · rw [if_neg h]; exact ih

theorem adjTo_length (src : Nat → Nat) (m u : Nat) : (adjTo src m u).length ≤ m := by
  unfold adjTo
  rw [List.length_reverse]
  exact (List.length_filter_le _ _).trans (by simp)

section net
variable {K : Type} [Zero K] (arcs : List (InputEdge K))

def arcOf (k : Nat) : InputEdge K := arcs.getD k ⟨0, 0, 0, 0⟩

def srcOf (e : Nat) : Nat := if e % 2 = 0 then (arcOf arcs (e / 2)).u else (arcOf arcs (e / 2)).v
def dstOf (e : Nat) : Nat := if e % 2 = 0 then (arcOf arcs (e / 2)).v else (arcOf arcs (e / 2)).u
def cstOf (e : Nat) : Int := if e % 2 = 0 then (arcOf arcs (e / 2)).cost else -(arcOf arcs (e / 2)).cost
def capOf (e : Nat) : K := if e % 2 = 0 then (arcOf arcs (e / 2)).capacity else 0

@[simp] theorem srcOf_even (k : Nat) : srcOf arcs (2 * k) = (arcOf arcs k).u := by simp [srcOf]
@[simp] theorem srcOf_odd (k : Nat) : srcOf arcs (2 * k + 1) = (arcOf arcs k).v := by
  unfold srcOf; rw [if_neg (by omega), show (2 * k + 1) / 2 = k by omega]
@[simp] theorem dstOf_even (k : Nat) : dstOf arcs (2 * k) = (arcOf arcs k).v := by simp [dstOf]
@[simp] theorem dstOf_odd (k : Nat) : dstOf arcs (2 * k + 1) = (arcOf arcs k).u := by
  unfold dstOf; rw [if_neg (by omega), show (2 * k + 1) / 2 = k by omega]
@[simp] theorem cstOf_even (k : Nat) : cstOf arcs (2 * k) = (arcOf arcs k).cost := by simp [cstOf]
@[simp] theorem cstOf_odd (k : Nat) : cstOf arcs (2 * k + 1) = -(arcOf arcs k).cost := by
  unfold cstOf; rw [if_neg (by omega), show (2 * k + 1) / 2 = k by omega]
@[simp] theorem capOf_even (k : Nat) : capOf arcs (2 * k) = (arcOf arcs k).capacity := by simp [capOf]
@[simp] theorem capOf_odd (k : Nat) : capOf arcs (2 * k + 1) = 0 := by
  unfold capOf; rw [if_neg (by omega)]

/-- the network of a list of arcs -/
def netOf (n : Nat) : Net where
  N := n
  E := 2 * arcs.length
  src := srcOf arcs
  dst := dstOf arcs
  cst := cstOf arcs
  nxt := fun e => (adjTo (srcOf arcs) e (srcOf arcs e)).head?
  head := fun u => (adjTo (srcOf arcs) (2 * arcs.length) u).head?
  adj := adjTo (srcOf arcs) (2 * arcs.length)

variable {arcs}

theorem arcOf_lt {k : Nat} (hk : k < arcs.length) : arcOf arcs k = arcs[k] := by
  simp [arcOf, hk]

theorem arcOf_mem {k : Nat} (hk : k < arcs.length) : arcOf arcs k ∈ arcs := by
  rw [arcOf_lt hk]; exact List.getElem_mem hk

theorem netOf_ok {n : Nat} (hu : ∀ a ∈ arcs, a.u < n) (hv : ∀ a ∈ arcs, a.v < n) (hne : ∀ a ∈ arcs, a.u ≠ a.v) : (netOf arcs n).OK where
  x_lt e he := by
    have he : e < 2 * arcs.length := he
    show e ^^^ 1 < 2 * arcs.length
    obtain ⟨k, rfl | rfl⟩ := two_cases e
    · rw [x_even]; omega
    · rw [x_odd]; omega
  src_x e he := by
    show srcOf arcs (e ^^^ 1) = dstOf arcs e
    obtain ⟨k, rfl | rfl⟩ := two_cases e
    · rw [x_even]; simp
    · rw [x_odd]; simp
  dst_x e he := by
    show dstOf arcs (e ^^^ 1) = srcOf arcs e
    obtain ⟨k, rfl | rfl⟩ := two_cases e
    · rw [x_even]; simp
    · rw [x_odd]; simp
  cst_x e he := by
    show cstOf arcs (e ^^^ 1) = -cstOf arcs e
    obtain ⟨k, rfl | rfl⟩ := two_cases e
    · rw [x_even]; simp
    · rw [x_odd]; simp
  src_lt e he := by
    have he : e < 2 * arcs.length := he
    show srcOf arcs e < n
    obtain ⟨k, rfl | rfl⟩ := two_cases e
    · rw [srcOf_even]; exact hu _ (arcOf_mem (by omega))
    · rw [srcOf_odd]; exact hv _ (arcOf_mem (by omega))
  ne e he := by
    have he : e < 2 * arcs.length := he
    show srcOf arcs e ≠ dstOf arcs e
    obtain ⟨k, rfl | rfl⟩ := two_cases e
    · rw [srcOf_even, dstOf_even]; exact hne _ (arcOf_mem (by omega))
    · rw [srcOf_odd, dstOf_odd]; exact (hne _ (arcOf_mem (by omega))).symm
  adj u hu e := mem_adjTo
  chain u hu := adjTo_chain _ _ _
  nodup u hu := List.nodup_reverse.2 (List.nodup_range.filter _)

end net

theorem ck_ok {imax x : Int} (h1 : -imax - 1 ≤ x) (h2 : x ≤ imax) : ck imax x = .ok x := by
  unfold ck; rw [if_pos ⟨h1, h2⟩]

/-- The first `m` edges are in the object. -/
structure InitInv {K : Type} [Zero K] (arcs : List (InputEdge K)) (n m : Nat) (s : CostScaling K) : Prop where
  N : s.N = n
  p : s.p = Vec.replicate 0 0
  hsz : s.head.size = n
  head : ∀ u, u < n → s.head.get u = (adjTo (srcOf arcs) m u).head?
  esz : s.edge.size = m
  edge : ∀ e, e < m → s.edge.get e = ⟨(adjTo (srcOf arcs) e (srcOf arcs e)).head?, dstOf arcs e, cstOf arcs e, capOf arcs e⟩
  len : s.len = (m : Int) - 1

theorem addEdge_spec {K : Type} [Zero K] {arcs : List (InputEdge K)} {n m : Nat} {s : CostScaling K} {imax : Int} {u v : Nat} {c : Int} {x : K}
    (I : InitInv arcs n m s) (hm : (m : Int) ≤ imax) (hu : u < n) (h1 : srcOf arcs m = u) (h2 : dstOf arcs m = v) (h3 : cstOf arcs m = c)
    (h4 : capOf arcs m = x) :
    ∃ s', addEdge imax u v c x s = .ok s' ∧ InitInv arcs n (m + 1) s' ∧ s'.epsilon = s.epsilon ∧ s'.total_cost = s.total_cost := by
  unfold addEdge
  rw [Vec.rd_ok (by rw [I.hsz]; exact hu), ok_bind, I.len, show ((m : Int) - 1 + 1) = m by ring, ck_ok (by omega) hm, ok_bind,
    Vec.wr_ok _ (by rw [I.hsz]; exact hu), ok_bind]
  refine ⟨_, rfl, ⟨I.N, I.p, I.hsz, fun w hw => ?_, ?_, fun e he => ?_, by simp⟩, rfl, rfl⟩
  · show (s.head.set u (some (m : Int).toNat)).get w = _
    rw [Vec.set_get, adjTo_succ, h1]
    by_cases hwu : w = u
    · rw [if_pos hwu, if_pos hwu.symm]; simp
    · rw [if_neg hwu, if_neg (fun h => hwu h.symm), I.head w hw]
  · show s.edge.size + 1 = m + 1
    rw [I.esz]
  · show (if e = s.edge.size then _ else s.edge.get e) = _
    rw [I.esz]
    by_cases hem : e = m
    · rw [if_pos hem, hem, h1, h2, h3, h4, I.head u hu]
    · rw [if_neg hem, I.edge e (by omega)]

/-- the first value of `epsilon` -/
def eps0 {K : Type} (arcs : List (InputEdge K)) : Int := arcs.foldl (fun a e => max a e.cost) 1

theorem foldl_max_ge {K : Type} (L : List (InputEdge K)) (a : Int) : a ≤ L.foldl (fun a e => max a e.cost) a := by
  induction L generalizing a with
  | nil => exact le_rfl
  | cons x L ih => exact (le_max_left _ _).trans (ih _)

theorem foldl_max_mem {K : Type} {L : List (InputEdge K)} {x : InputEdge K} (hx : x ∈ L) (a : Int) : x.cost ≤ L.foldl (fun a e => max a e.cost) a := by
  induction L generalizing a with
  | nil => cases hx
  | cons y L ih =>
    rcases List.mem_cons.1 hx with rfl | hx
    · exact (le_max_right _ _).trans (foldl_max_ge L _)
    · exact ih hx _

variable {K : Type} [Field K] [LinearOrder K] [IsStrictOrderedRing K]

theorem init_spec {arcs : List (InputEdge K)} {n : Nat} {imax : Int} (hu : ∀ a ∈ arcs, a.u < n) (hv : ∀ a ∈ arcs, a.v < n)
    (hi : 2 * (arcs.length : Int) - 1 ≤ imax) (hc1 : ∀ a ∈ arcs, -a.cost ≤ imax) (hc2 : ∀ a ∈ arcs, a.cost ≤ imax + 1) :
    ∃ s, init imax n arcs = .ok s ∧ Static (netOf arcs n) s ∧ s.epsilon = (eps0 arcs : K) ∧
      (∀ e, e < 2 * arcs.length → cap s e = capOf arcs e) ∧ (∀ v, v < n → s.p.get v = 0) ∧
      s.total_cost = (arcs.map fun a => a.capacity * (a.cost : K)).sum := by
  have key : ∀ (L : List (InputEdge K)) (i : Nat) (s : CostScaling K) (a : Int), i + L.length = arcs.length →
      (∀ k (h : k < L.length), arcOf arcs (i + k) = L[k]) → InitInv arcs n (2 * i) s → s.epsilon = (a : K) →
      ∃ s', L.foldlM (initEdge imax) s = .ok s' ∧ InitInv arcs n (2 * arcs.length) s' ∧
        s'.epsilon = ((L.foldl (fun a e => max a e.cost) a : Int) : K) ∧
        s'.total_cost = s.total_cost + (L.map fun a => a.capacity * (a.cost : K)).sum := by
    intro L
    induction L with
    | nil =>
      intro i s a hl _ I he
      refine ⟨s, rfl, ?_, he, by simp⟩
      rw [← hl]; exact I
    | cons x L ih =>
      intro i s a hl hget I he
      have hx : arcOf arcs i = x := hget 0 (by simp)
      have hi' : i < arcs.length := by simp at hl; omega
      have hxm : x ∈ arcs := by rw [← hx]; exact arcOf_mem hi'
      rw [List.foldlM_cons]
      unfold initEdge
      dsimp only
      obtain ⟨s1, e1, I1, p1, t1⟩ := addEdge_spec (imax := imax) (u := x.u) (v := x.v) (c := x.cost) (x := x.capacity)
        (s := { s with epsilon := dmax s.epsilon (x.cost : K), total_cost := s.total_cost + x.capacity * (x.cost : K) })
        ⟨I.N, I.p, I.hsz, I.head, I.esz, I.edge, I.len⟩ (by push_cast; omega) (hu x hxm) (by simp [hx]) (by simp [hx]) (by simp [hx])
        (by simp [hx])
      rw [e1, ok_bind, ck_ok (by have := hc2 x hxm; omega) (hc1 x hxm), ok_bind]
      obtain ⟨s2, e2, I2, p2, t2⟩ := addEdge_spec (imax := imax) (u := x.v) (v := x.u) (c := -x.cost) (x := (0 : K)) I1
        (by push_cast; omega) (hv x hxm) (by simp [hx]) (by simp [hx]) (by simp [hx]) (by simp)
      rw [e2, ok_bind]
      obtain ⟨s3, e3, I3, p3, t3⟩ := ih (i + 1) s2 (max a x.cost) (by simp at hl; omega)
        (fun k hk => by
          have := hget (k + 1) (by simp; omega)
          rw [show i + 1 + k = i + (k + 1) by omega, this]; simp)
        (by rw [show 2 * (i + 1) = 2 * i + 1 + 1 by ring]; exact I2)
        (by rw [p2, p1]; show dmax s.epsilon _ = _; rw [he, dmax_eq]; push_cast; rfl)
      refine ⟨s3, e3, I3, p3, ?_⟩
      rw [t3, t2, t1]
      simp only [List.map_cons, List.sum_cons]
      ring
  unfold init
  obtain ⟨s, e1, I, p, t⟩ := key arcs 0
    ({ N := n, epsilon := 1, p := Vec.replicate 0 0, head := Vec.replicate n none, edge := Vec.replicate 0 ⟨none, 0, 0, 0⟩,
       len := -1, total_cost := 0 } : CostScaling K) 1 (by simp) (fun k hk => by rw [Nat.zero_add, arcOf_lt hk])
    ⟨rfl, rfl, rfl, fun u hu => by simp [adjTo], rfl, fun e he => by simp at he, by simp⟩ (by simp)
  rw [e1, ok_bind]
  refine ⟨_, rfl, ⟨I.N, rfl, I.hsz, I.head, I.esz, fun e he => ?_⟩, p, fun e he => ?_, fun v hv => ?_, ?_⟩
  · rw [show ({ s with p := s.p.resize n 0 } : CostScaling K).edge.get e = _ from I.edge e he]
    show _ = ({ next := _, v := _, cost := _, capacity := (s.edge.get e).capacity } : CArc K)
    rw [I.edge e he]
    rfl
  · show (s.edge.get e).capacity = _
    rw [I.edge e he]
  · show (s.p.resize n 0).get v = 0
    rw [I.p]
    simp [Vec.resize, Vec.replicate]
  · rw [show ({ s with p := s.p.resize n 0 } : CostScaling K).total_cost = _ from t]; simp

end AHO.CS
