import Verif.Proof.FlowNet
import Mathlib.Algebra.Group.Subgroup.Basic
/-!
# Running the network flow part with inexact arithmetic

`FEmb K R` extends `Emb K R` to all operations of the data type. `Room` says that the values which occur in
a phase are exact.
-/

namespace AHO
open Spec LCT
set_option linter.unusedSectionVars false

/-- values of `R` that stand for values of `K`; an operation is exact if its result lies in `I` -/
structure FEmb (K R : Type) [Field K] [LinearOrder K] [IsStrictOrderedRing K] [Zero R] [One R] [Add R] [Sub R] [Neg R]
    [Mul R] [Div R] [IntCast R] [BEq R] [LT R] [LE R] extends Emb K R where
  /-- the values that can occur, if they are small enough -/
  U : AddSubgroup K
  one : e 1 = 1
  plus : ∀ a b, a ∈ U → I (a + b) → e (a + b) = e a + e b
  sub : ∀ a b, a ∈ U → I (a - b) → e (a - b) = e a - e b
  neg : ∀ a, I a → e (-a) = -e a
  mul : ∀ a (k : Int), a ∈ U → I (k : K) → I (a * (k : K)) → e (a * (k : K)) = e a * (k : R)
  half : ∀ a, a ∈ U → I ((2 : Int) : K) → I (a / ((2 : Int) : K)) → e (a / ((2 : Int) : K)) = e a / ((2 : Int) : R)

/-- exact arithmetic -/
def FEmb.id (K : Type) [Field K] [LinearOrder K] [IsStrictOrderedRing K] : FEmb K K where
  toEmb := Emb.id K
  U := ⊤
  one := rfl
  plus := fun _ _ _ _ => rfl
  sub := fun _ _ _ _ => rfl
  neg := fun _ _ => rfl
  mul := fun _ _ _ _ _ => rfl
  half := fun _ _ _ _ => rfl

variable {K : Type} [Field K] [LinearOrder K] [IsStrictOrderedRing K]
variable {R : Type} [Zero R] [One R] [Add R] [Sub R] [Neg R] [Mul R] [Div R] [IntCast R] [BEq R] [LT R] [LE R]
  [DecidableLT R] [DecidableLE R] (E : FEmb K R) (ed : Vec (OmegaLimit R))

/-- the object over `R`, with the edges `ed` -/
def FEmb.F (s : Flow K) : Flow R where
  n := s.n
  M := E.e s.M
  epsilon := s.epsilon
  nodes := E.h s.nodes
  imbalances := s.imbalances.map E.e
  currentEdge := s.currentEdge
  uq := s.uq
  fa := s.fa
  edges := ed
  flows := s.flows.map E.e
  G := s.G
  scaling := s.scaling

@[simp] theorem FEmb.F_n (s : Flow K) : (E.F ed s).n = s.n := rfl
@[simp] theorem FEmb.F_epsilon (s : Flow K) : (E.F ed s).epsilon = s.epsilon := rfl
@[simp] theorem FEmb.F_nodes (s : Flow K) : (E.F ed s).nodes = E.h s.nodes := rfl
@[simp] theorem FEmb.F_imbalances (s : Flow K) : (E.F ed s).imbalances = s.imbalances.map E.e := rfl
@[simp] theorem FEmb.F_currentEdge (s : Flow K) : (E.F ed s).currentEdge = s.currentEdge := rfl
@[simp] theorem FEmb.F_uq (s : Flow K) : (E.F ed s).uq = s.uq := rfl
@[simp] theorem FEmb.F_fa (s : Flow K) : (E.F ed s).fa = s.fa := rfl
@[simp] theorem FEmb.F_edges (s : Flow K) : (E.F ed s).edges = ed := rfl
@[simp] theorem FEmb.F_flows (s : Flow K) : (E.F ed s).flows = s.flows.map E.e := rfl
@[simp] theorem FEmb.F_G (s : Flow K) : (E.F ed s).G = s.G := rfl
@[simp] theorem FEmb.F_scaling (s : Flow K) : (E.F ed s).scaling = s.scaling := rfl

theorem FEmb.pos {a : K} (h0 : E.I 0) (ha : E.I a) : (0 : R) < E.e a ↔ 0 < a := by
  rw [← E.zero, E.lt _ _ h0 ha]

theorem FEmb.max {a : K} (h0 : E.I 0) (ha : E.I a) : dmax (0 : R) (E.e a) = E.e (max 0 a) := by
  unfold dmax
  by_cases h : 0 < a
  · rw [if_pos ((E.pos h0 ha).2 h), max_eq_right h.le]
  · rw [if_neg (fun hh => h ((E.pos h0 ha).1 hh)), max_eq_left (not_lt.1 h), E.zero]

namespace Flow

variable {E ed} {net : Net K} {C : K} {imax : Int}

/-- The values of a phase are exact: `C` is the lower bound of `w v` plus the imbalance of `v`. -/
structure Room (E : FEmb K R) (ed : Vec (OmegaLimit R)) (net : Net K) (C : K) : Prop where
  M0 : 0 ≤ net.M
  MU : net.M ∈ E.U
  gU : ∀ e, e < net.E → ∀ x, net.lo e ≤ x → x ≤ net.up e → net.g e x ∈ E.U
  C_le : C ≤ -(net.E * net.M)
  mem : ∀ x ∈ E.U, |x| ≤ net.E * net.M + 2 * net.M - C → E.I x
  esz : ed.size = net.E
  ei : ∀ e, e < net.E → (ed.get e).i = net.src e
  ej : ∀ e, e < net.E → (ed.get e).j = net.dst e
  el : ∀ e, e < net.E → (ed.get e).l = net.lo e
  eu : ∀ e, e < net.E → (ed.get e).u = net.up e
  ef : ∀ e, e < net.E → ∀ x, net.lo e ≤ x → x ≤ net.up e → (ed.get e).fn x = .ok (E.e (net.g e x))

namespace Room
variable (rm : Room E ed net C)
include rm

theorem EM0 : 0 ≤ (net.E : K) * net.M := mul_nonneg (Nat.cast_nonneg _) rm.M0

theorem LU {e} (he : e < net.E) (s : Int) : net.L e s ∈ E.U := by
  unfold Net.L lft
  split
  · exact rm.MU
  · split
    · exact E.U.neg_mem rm.MU
    · exact E.U.sub_mem (rm.gU e he _ (by omega) (by omega)) (rm.gU e he _ (by omega) (by omega))

/-- small values are exact -/
theorem small {x : K} (hx : x ∈ E.U) (h1 : -(2 * net.M) ≤ x) (h2 : x ≤ 2 * net.M) : E.I x := by
  have := rm.EM0
  have := rm.C_le
  exact rm.mem x hx (abs_le.2 ⟨by linarith, by linarith⟩)

theorem I0 : E.I 0 := by
  have := rm.M0
  exact rm.small (zero_mem _) (by linarith) (by linarith)

theorem max0 {x : K} (h : E.I x) : E.I (max 0 x) := by
  rcases max_choice 0 x with e | e <;> rw [e]
  · exact rm.I0
  · exact h

theorem imb {x : K} (hx : x ∈ E.U) (h : |x| ≤ net.E * net.M) : E.I x := by
  have := rm.EM0
  have := rm.C_le
  have := rm.M0
  exact rm.mem x hx (by linarith)

theorem low {x : K} (hx : x ∈ E.U) (h1 : C - net.E * net.M ≤ x) (h2 : x ≤ 2 * net.M) : E.I x := by
  have := rm.EM0
  have := rm.C_le
  have := rm.M0
  exact rm.mem x hx (abs_le.2 ⟨by linarith, by linarith⟩)

end Room

/-- exact arithmetic always has room -/
theorem room_id (hM : 0 ≤ net.M) (hC : C ≤ -(net.E * net.M)) :
    ∃ ed : Vec (OmegaLimit K), Room (FEmb.id K) ed net C :=
  ⟨⟨net.E, fun e => { l := net.lo e, u := net.up e, fn := fun x => .ok (net.g e x), i := net.src e, j := net.dst e }⟩,
    { M0 := hM
      MU := trivial
      gU := fun _ _ _ _ _ => trivial
      C_le := hC
      mem := fun _ _ _ => trivial
      esz := rfl
      ei := fun _ _ => rfl
      ej := fun _ _ => rfl
      el := fun _ _ => rfl
      eu := fun _ _ => rfl
      ef := fun _ _ _ _ _ => rfl }⟩

theorem q_simE (ok : net.OK) {s : Flow K} (rm : Room E ed net C) (st : Static net s)
    (po : PotOK net imax s) {e} (he : e < net.E) (hf1 : s.flows.get e ≤ net.M)
    (hf2 : -net.M ≤ s.flows.get e) (hU : s.flows.get e ∈ E.U) :
    q imax (E.F ed s) e = .ok (E.e (max 0 (net.L e (dd net s e) - s.flows.get e))) := by
  have hs := ok.src_le e he
  have hd := ok.dst_le e he
  have n1 := po.nonneg _ hs
  have n2 := po.nonneg _ hd
  have n3 := po.le _ hs
  have n4 := po.le _ hd
  have hN : 0 < net.N := by unfold Net.N; omega
  have hNe : ((2 * (s.n + 1) : Nat) : Int) = net.N := by
    unfold Net.N; rw [st.n]; push_cast; ring
  have hM := rm.M0
  unfold q FEmb.F
  simp only
  rw [Vec.rd_ok (by rw [rm.esz]; exact he), ok_bind, rm.ei e he, rm.ej e he, rm.eu e he, rm.el e he,
    Vec.rd_ok (by rw [st.ssz]; omega), ok_bind, Vec.rd_ok (by rw [st.ssz]; omega), ok_bind]
  set d := s.scaling.get (net.src e) - s.scaling.get (net.dst e) with hd'
  have hdd : dd net s e = d := rfl
  rw [ck_ok (by omega) (by omega), ok_bind]
  unfold toInt
  rw [hNe, ck_ok (by omega) po.N_le, ok_bind]
  obtain ⟨r1, r2⟩ := cdiv_range (d := d) (P := imax) hN (by omega) (by omega)
  have hc : ceilDiv imax d net.N = .ok (cdiv d net.N) := by
    unfold ceilDiv
    rw [if_neg (by omega), tdiv_cdiv hN, ck_ok (by omega) r2]
  rw [hc, ok_bind, ck_ok (by omega) (by omega), ok_bind, ck_ok (by omega) (by omega), ok_bind,
    Vec.map_rd, Vec.rd_ok (by rw [st.flsz]; exact he), map_ok, ok_bind, hdd]
  have hLU := rm.LU he d
  have hL1 := ok.L_le he d
  have hL2 := ok.le_L he d
  unfold Net.L lft at hLU hL1 hL2 ⊢
  simp only [sub_add_cancel]
  by_cases c1 : cdiv d net.N > net.up e
  · simp only [if_pos c1] at hLU hL1 hL2 ⊢
    rw [st.M, max_eq_right (by linarith), E.sub _ _ rm.MU]
    exact rm.small (E.U.sub_mem rm.MU hU) (by linarith) (by linarith)
  · simp only [if_neg c1] at hLU hL1 hL2 ⊢
    by_cases c2 : cdiv d net.N - 1 < net.lo e
    · simp only [if_pos c2] at hLU hL1 hL2 ⊢
      rw [max_eq_left (by linarith), E.zero]
    · simp only [if_neg c2] at hLU hL1 hL2 ⊢
      rw [rm.ef e he _ (by omega) (by omega), ok_bind, rm.ef e he _ (by omega) (by omega), ok_bind,
        ← E.sub _ _ (rm.gU e he _ (by omega) (by omega)) (rm.small hLU (by linarith) (by linarith)),
        ← E.sub _ _ hLU (rm.small (E.U.sub_mem hLU hU) (by linarith) (by linarith)),
        E.max rm.I0 (rm.small (E.U.sub_mem hLU hU) (by linarith) (by linarith))]

theorem addFlowOfEdge_simE {s : Flow K} {e : Nat} {x : K} (hU : s.flows.get e ∈ E.U) (hI : E.I (s.flows.get e + x)) :
    addFlowOfEdge (E.F ed s) e (E.e x) = (addFlowOfEdge s e x).map (E.F ed) := by
  unfold addFlowOfEdge
  refine sim_bind (Vec.map_rd E.e s.flows e) fun f hf => ?_
  have hf' : f = s.flows.get e := by
    unfold Vec.rd at hf; split at hf <;> simp_all
  subst hf'
  refine sim_bind (f := Vec.map E.e) ?_ fun fl hfl => ?_
  · rw [← E.plus _ _ hU hI]; exact Vec.map_wr E.e s.flows e _
  refine sim_bind (Vec.map_rd E.e fl e) fun f hf => ?_
  have hf' : f = s.flows.get e + x := by
    unfold Vec.wr at hfl
    unfold Vec.rd at hf
    split at hfl <;> cases hfl
    split at hf <;> cases hf
    exact Vec.set_get_self _ _ _
  subst hf'
  refine sim_bind (f := Vec.map E.e) ?_ fun fl _ => rfl
  rw [← E.neg _ hI]; exact Vec.map_wr E.e fl _ _

theorem enqueueActive_simE {s : Flow K} {i : Nat} (h0 : E.I 0) (hi : E.I (s.imbalances.get i)) :
    enqueueActive (E.F ed s) i = (enqueueActive s i).map (E.F ed) := by
  unfold enqueueActive
  refine sim_bind (Vec.map_rd E.e s.imbalances i) fun b hb => ?_
  have hb' : b = s.imbalances.get i := by
    unfold Vec.rd at hb; split at hb <;> simp_all
  subst hb'
  by_cases h : 0 < s.imbalances.get i
  · rw [if_pos ((E.pos h0 hi).2 h), if_pos h]
    exact sim_bind' (by rfl) fun uq _ => rfl
  · rw [if_neg (fun hh => h ((E.pos h0 hi).1 hh)), if_neg h]
    rfl

end Flow
end AHO
