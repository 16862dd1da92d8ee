import Verif.Model.Flow
import Verif.Proof.Slope
import Verif.Proof.Queue
import Verif.Proof.LCTOps
import Mathlib.Algebra.BigOperators.Group.Finset.Basic
/-!
# The network behind a `Flow` object, and the function `q`
-/

namespace AHO.Flow
open AHO Spec
set_option linter.unusedSectionVars false

variable {K : Type} [Field K] [LinearOrder K] [IsStrictOrderedRing K]

/-- The constant data of a flow problem: edge `e` goes from `src e` to `dst e` and has the cost `g e` on
`[lo e, up e]`; the edges `2 k` and `2 k + 1` are reverses of each other. -/
structure Net (K : Type) where
  n : Nat
  E : Nat
  src : Nat → Nat
  dst : Nat → Nat
  lo : Nat → Int
  up : Nat → Int
  g : Nat → Int → K
  M : K

namespace Net

/-- the common denominator of the potentials -/
def N (net : Net K) : Int := 2 * ((net.n : Int) + 1)

/-- left slope of the cost of edge `e` -/
def L (net : Net K) (e : Nat) (s : Int) : K := lft net.N net.M (net.lo e) (net.up e) (net.g e) s

/-- edges leaving `v`, in the order of `G[v]` -/
def out (net : Net K) (v : Nat) : List Nat := (List.range net.E).filter (fun e => net.src e = v)

/-- well-formedness -/
structure OK (net : Net K) : Prop where
  src_le : ∀ e, e < net.E → net.src e ≤ net.n
  dst_le : ∀ e, e < net.E → net.dst e ≤ net.n
  ne : ∀ e, e < net.E → net.src e ≠ net.dst e
  x_lt : ∀ e, e < net.E → e ^^^ 1 < net.E
  src_x : ∀ e, e < net.E → net.src (e ^^^ 1) = net.dst e
  dst_x : ∀ e, e < net.E → net.dst (e ^^^ 1) = net.src e
  lo_x : ∀ e, e < net.E → net.lo (e ^^^ 1) = -net.up e
  up_x : ∀ e, e < net.E → net.up (e ^^^ 1) = -net.lo e
  g_x : ∀ e, e < net.E → net.g (e ^^^ 1) = fun x => net.g e (-x)
  edge : ∀ e, e < net.E → EdgeOK net.N net.M (net.lo e) (net.up e) (net.g e)

theorem mem_out {net : Net K} {v e : Nat} : e ∈ net.out v ↔ e < net.E ∧ net.src e = v := by
  simp [out]

end Net

@[simp] theorem xor_xor (e : Nat) : e ^^^ 1 ^^^ 1 = e := by
  rw [Nat.xor_assoc]; simp

theorem xor_ne (e : Nat) : e ^^^ 1 ≠ e := by
  intro h
  have h2 : e ^^^ (e ^^^ 1) = e ^^^ e := by rw [h]
  rw [← Nat.xor_assoc] at h2
  simp at h2

theorem xor_inj {a b : Nat} (h : a ^^^ 1 = b ^^^ 1) : a = b := by
  rw [← xor_xor a, h, xor_xor]

namespace Net.OK
variable {net : Net K} (ok : net.OK)
include ok

theorem L_mono {e} (he : e < net.E) {s s' : Int} (h : s ≤ s') : net.L e s ≤ net.L e s' :=
  lft_mono (ok.edge e he) h

theorem L_le {e} (he : e < net.E) (s : Int) : net.L e s ≤ net.M := lft_le (ok.edge e he) s

theorem le_L {e} (he : e < net.E) (s : Int) : -net.M ≤ net.L e s := le_lft (ok.edge e he) s

theorem L_x {e} (he : e < net.E) (s : Int) :
    net.L (e ^^^ 1) s = lft net.N net.M (-net.up e) (-net.lo e) (fun x => net.g e (-x)) s := by
  unfold Net.L; rw [ok.lo_x e he, ok.up_x e he, ok.g_x e he]

theorem L_x_le {e} (he : e < net.E) (s : Int) : net.L e s + net.L (e ^^^ 1) (-s) ≤ 0 := by
  rw [ok.L_x he]; exact lft_rev_le (ok.edge e he) s

theorem L_x_ge {e} (he : e < net.E) {s' s : Int} (h : s' < s) :
    0 ≤ net.L e s + net.L (e ^^^ 1) (-s') := by
  rw [ok.L_x he]; exact lft_rev_ge (ok.edge e he) h

end Net.OK

/-- The parts of a `Flow` object which never change, and the sizes of the others. -/
structure Static (net : Net K) (s : Flow K) : Prop where
  n : s.n = net.n
  M : s.M = net.M
  esz : s.edges.size = net.E
  ei : ∀ e, e < net.E → (s.edges.get e).i = net.src e
  ej : ∀ e, e < net.E → (s.edges.get e).j = net.dst e
  el : ∀ e, e < net.E → (s.edges.get e).l = net.lo e
  eu : ∀ e, e < net.E → (s.edges.get e).u = net.up e
  ef : ∀ e, e < net.E → ∀ x, net.lo e ≤ x → x ≤ net.up e → (s.edges.get e).fn x = .ok (net.g e x)
  gsz : s.G.size = net.n + 1
  g : ∀ v, v ≤ net.n → s.G.get v = net.out v
  nsz : s.nodes.size = net.n + 1
  isz : s.imbalances.size = net.n + 1
  csz : s.currentEdge.size = net.n + 1
  fsz : s.fa.size = net.n + 1
  ssz : s.scaling.size = net.n + 1
  flsz : s.flows.size = net.E
  qsz : s.uq.isIn.size = net.n + 1

/-- the potentials fit into an `int`, and are not negative -/
structure PotOK (net : Net K) (imax : Int) (s : Flow K) : Prop where
  N_le : net.N ≤ imax
  nonneg : ∀ v, v ≤ net.n → 0 ≤ s.scaling.get v
  le : ∀ v, v ≤ net.n → s.scaling.get v ≤ imax

/-- scaled potential difference along an edge -/
def dd (net : Net K) (s : Flow K) (e : Nat) : Int := s.scaling.get (net.src e) - s.scaling.get (net.dst e)

theorem dd_x {net : Net K} (ok : net.OK) (s : Flow K) {e} (he : e < net.E) :
    dd net s (e ^^^ 1) = -dd net s e := by
  unfold dd; rw [ok.src_x e he, ok.dst_x e he]; ring

theorem tdiv_cdiv {num d : Int} (hd : 0 < d) :
    num.tdiv d + (if num.tmod d > 0 then 1 else 0) = cdiv num d := by
  unfold cdiv
  by_cases h : 0 ≤ num
  · rw [Int.tdiv_eq_ediv_of_nonneg h, Int.tmod_eq_emod_of_nonneg h]
    have h1 := Int.mul_ediv_add_emod num d
    have h2 := Int.emod_nonneg num (show d ≠ 0 by omega)
    have h3 := Int.emod_lt_of_pos num hd
    obtain ⟨b1, b2⟩ := cdiv_bounds num d hd
    unfold cdiv at b1 b2
    set c := -(-num / d)
    split
    · -- c = num / d + 1
      have e1 : num / d < c := by
        by_contra hc
        have := Int.mul_le_mul_of_nonneg_left (show c ≤ num / d by omega) hd.le
        omega
      have e2 : c ≤ num / d + 1 := by
        by_contra hc
        have := Int.mul_le_mul_of_nonneg_left (show num / d + 1 ≤ c - 1 by omega) hd.le
        rw [Int.mul_add] at this
        omega
      omega
    · have e1 : num / d ≤ c := by
        by_contra hc
        have := Int.mul_le_mul_of_nonneg_left (show c + 1 ≤ num / d by omega) hd.le
        rw [Int.mul_add] at this
        omega
      have e2 : c ≤ num / d := by
        by_contra hc
        have := Int.mul_le_mul_of_nonneg_left (show num / d ≤ c - 1 by omega) hd.le
        omega
      omega
  · have h' : 0 ≤ -num := by omega
    have e1 : num.tdiv d = -(-num / d) := by
      rw [← Int.tdiv_eq_ediv_of_nonneg h', Int.neg_tdiv]; simp
    have e2 : num.tmod d ≤ 0 := by
      have : num.tmod d = -((-num).tmod d) := by rw [Int.neg_tmod]; simp
      rw [this, Int.tmod_eq_emod_of_nonneg h']
      have := Int.emod_nonneg (-num) (show d ≠ 0 by omega)
      omega
    rw [e1, if_neg (by omega)]
    omega

theorem cdiv_range {d N P : Int} (hN : 0 < N) (h1 : -P ≤ d) (h2 : d ≤ P) :
    -P ≤ cdiv d N ∧ cdiv d N ≤ P := by
  obtain ⟨b1, b2⟩ := cdiv_bounds d N hN
  have hN1 : 1 ≤ N := hN
  constructor
  · by_contra hc
    have h3 : cdiv d N + 1 ≤ -P := by omega
    nlinarith
  · by_contra hc
    have h3 : P ≤ cdiv d N - 1 := by omega
    nlinarith

theorem q_spec {net : Net K} (ok : net.OK) {imax : Int} {s : Flow K} (st : Static net s)
    (po : PotOK net imax s) {e} (he : e < net.E) (hf1 : s.flows.get e ≤ net.M)
    (hf2 : -net.M ≤ s.flows.get e) :
    q imax s e = .ok (max 0 (net.L e (dd net s e) - s.flows.get e)) := by
  have hs := ok.src_le e he
  have hd := ok.dst_le e he
  have n1 := po.nonneg _ hs
  have n2 := po.nonneg _ hd
  have n3 := po.le _ hs
  have n4 := po.le _ hd
  have hN : 0 < net.N := by unfold Net.N; omega
  have hNe : ((2 * (s.n + 1) : Nat) : Int) = net.N := by
    unfold Net.N; rw [st.n]; push_cast; ring
  unfold q
  rw [Vec.rd_ok (by rw [st.esz]; exact he), ok_bind, st.ei e he, st.ej e he, st.eu e he, st.el e he,
    Vec.rd_ok (by rw [st.ssz]; omega), ok_bind, Vec.rd_ok (by rw [st.ssz]; omega), ok_bind]
  set d := s.scaling.get (net.src e) - s.scaling.get (net.dst e) with hd'
  have hdd : dd net s e = d := rfl
  rw [ck_ok (by omega) (by omega), ok_bind]
  unfold toInt
  rw [hNe, ck_ok (by omega) po.N_le, ok_bind]
  obtain ⟨r1, r2⟩ := cdiv_range (d := d) (P := imax) hN (by omega) (by omega)
  have hc : ceilDiv imax d net.N = .ok (cdiv d net.N) := by
    unfold ceilDiv
    rw [if_neg (by omega), tdiv_cdiv hN, ck_ok (by omega) r2]
  rw [hc, ok_bind, ck_ok (by omega) (by omega), ok_bind, ck_ok (by omega) (by omega), ok_bind,
    Vec.rd_ok (by rw [st.flsz]; exact he), ok_bind, hdd]
  unfold Net.L lft
  simp only [sub_add_cancel]
  by_cases c1 : cdiv d net.N > net.up e
  · rw [if_pos c1, if_pos c1, st.M, max_eq_right (by linarith)]
  · rw [if_neg c1, if_neg c1]
    by_cases c2 : cdiv d net.N - 1 < net.lo e
    · rw [if_pos c2, if_pos c2, max_eq_left (by linarith)]
    · rw [if_neg c2, if_neg c2, st.ef e he _ (by omega) (by omega), ok_bind,
        st.ef e he _ (by omega) (by omega), ok_bind]
      congr 1
      unfold dmax
      rw [max_def_lt]

end AHO.Flow
