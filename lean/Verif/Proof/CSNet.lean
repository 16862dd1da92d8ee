import Verif.Model.CostScaling
import Verif.Proof.Loops
import Mathlib.Algebra.Order.Field.Basic
import Mathlib.Algebra.BigOperators.Group.Finset.Sigma
import Mathlib.Algebra.Order.BigOperators.Group.Finset
import Mathlib.Algebra.BigOperators.Ring.Finset
import Mathlib.Data.Finset.Image
import Mathlib.Data.Finset.Prod
import Mathlib.Data.Nat.Bitwise
import Mathlib.Tactic.Linarith
import Mathlib.Tactic.Ring
import Mathlib.Tactic.Push
/-!
# Networks of `CostScaling`, residual capacities, and how far potentials move
-/

namespace AHO.CS
open AHO
set_option linter.unusedSectionVars false

/-- The list `L` is what one visits from `h` along `nxt`. -/
def Chain (nxt : Nat → Option Nat) : Option Nat → List Nat → Prop
  | h, [] => h = none
  | h, e :: L => h = some e ∧ Chain nxt (nxt e) L

/-- The part of a network that does not change: edge `e ^^^ 1` is edge `e` backwards. -/
structure Net where
  N : Nat
  E : Nat
  src : Nat → Nat
  dst : Nat → Nat
  cst : Nat → Int
  nxt : Nat → Option Nat
  head : Nat → Option Nat
  adj : Nat → List Nat

structure Net.OK (net : Net) : Prop where
  x_lt : ∀ e, e < net.E → e ^^^ 1 < net.E
  src_x : ∀ e, e < net.E → net.src (e ^^^ 1) = net.dst e
  dst_x : ∀ e, e < net.E → net.dst (e ^^^ 1) = net.src e
  cst_x : ∀ e, e < net.E → net.cst (e ^^^ 1) = -net.cst e
  src_lt : ∀ e, e < net.E → net.src e < net.N
  ne : ∀ e, e < net.E → net.src e ≠ net.dst e
  adj : ∀ u, u < net.N → ∀ e, e ∈ net.adj u ↔ e < net.E ∧ net.src e = u
  chain : ∀ u, u < net.N → Chain net.nxt (net.head u) (net.adj u)
  nodup : ∀ u, u < net.N → (net.adj u).Nodup

/-- number of edges out of `u` -/
def Net.deg (net : Net) (u : Nat) : Nat := ((Finset.range net.E).filter fun e => net.src e = u).card

theorem Net.OK.deg_eq {net : Net} (ok : net.OK) {u : Nat} (hu : u < net.N) : (net.adj u).length = net.deg u := by
  rw [← List.toFinset_card_of_nodup (ok.nodup u hu)]
  unfold Net.deg
  congr 1
  ext e
  rw [List.mem_toFinset, ok.adj u hu, Finset.mem_filter, Finset.mem_range]

theorem Net.OK.sum_deg {net : Net} (ok : net.OK) : ∑ u ∈ Finset.range net.N, net.deg u = net.E := by
  have := Finset.card_eq_sum_card_fiberwise (s := Finset.range net.E) (t := Finset.range net.N) (f := net.src)
    (fun e he => by
      have he := Finset.mem_coe.1 he
      exact Finset.mem_coe.2 (Finset.mem_range.2 (ok.src_lt e (Finset.mem_range.1 he))))
  rw [Finset.card_range] at this
  exact this.symm

theorem Net.OK.len {net : Net} (ok : net.OK) {u : Nat} (hu : u < net.N) : (net.adj u).length ≤ net.E := by
  rw [ok.deg_eq hu]
  exact (Finset.card_filter_le _ _).trans (by simp)

theorem Net.OK.dst_lt {net : Net} (ok : net.OK) {e} (he : e < net.E) : net.dst e < net.N := by
  rw [← ok.src_x e he]; exact ok.src_lt _ (ok.x_lt e he)

theorem x_ne (e : Nat) : e ^^^ 1 ≠ e := by
  intro h
  have h1 : e ^^^ (e ^^^ 1) = e ^^^ e := by rw [h]
  rw [← Nat.xor_assoc, Nat.xor_self, Nat.zero_xor] at h1
  omega

@[simp] theorem x_x (e : Nat) : e ^^^ 1 ^^^ 1 = e := by
  rw [Nat.xor_assoc, Nat.xor_self, Nat.xor_zero]

/-- reduced cost -/
def rc {K : Type} [Add K] [Sub K] [IntCast K] (net : Net) (p : Nat → K) (e : Nat) : K := (net.cst e : K) - p (net.src e) + p (net.dst e)

variable {K : Type} [Field K] [LinearOrder K] [IsStrictOrderedRing K]
variable {net : Net}

theorem rc_x (ok : net.OK) {e} (he : e < net.E) (p : Nat → K) : rc net p (e ^^^ 1) = -rc net p e := by
  unfold rc
  rw [ok.cst_x e he, ok.src_x e he, ok.dst_x e he]
  push_cast; ring

/-- what the residual capacities of the edges at `v` gained -/
def gain (net : Net) (d : Nat → K) (v : Nat) : K :=
  ∑ e ∈ (Finset.range net.E).filter (fun e => net.src e = v), d e

theorem sum_inner (ok : net.OK) {d : Nat → K} (hd : ∀ e, e < net.E → d (e ^^^ 1) = -d e) (T : Finset Nat) :
    ∑ e ∈ (Finset.range net.E).filter (fun e => net.src e ∈ T ∧ net.dst e ∈ T), d e = 0 := by
  set A := (Finset.range net.E).filter (fun e => net.src e ∈ T ∧ net.dst e ∈ T)
  have hA : ∀ e, e ∈ A ↔ e < net.E ∧ net.src e ∈ T ∧ net.dst e ∈ T := by
    intro e; simp [A]
  have hx : ∀ e ∈ A, e ^^^ 1 ∈ A := by
    intro e he
    obtain ⟨h1, h2, h3⟩ := (hA e).1 he
    rw [hA, ok.src_x e h1, ok.dst_x e h1]
    exact ⟨ok.x_lt e h1, h3, h2⟩
  have h1 : ∑ e ∈ A, d e = ∑ e ∈ A, -d e := by
    refine Finset.sum_nbij' (fun e => e ^^^ 1) (fun e => e ^^^ 1) hx hx (by simp) (by simp) ?_
    intro e he
    rw [hd e ((hA e).1 he).1, neg_neg]
  rw [Finset.sum_neg_distrib] at h1
  linarith

theorem sum_gain (ok : net.OK) {d : Nat → K} (hd : ∀ e, e < net.E → d (e ^^^ 1) = -d e) (T : Finset Nat) :
    ∑ u ∈ T, gain net d u =
      ∑ e ∈ (Finset.range net.E).filter (fun e => net.src e ∈ T ∧ net.dst e ∉ T), d e := by
  have h1 : ∑ u ∈ T, gain net d u = ∑ e ∈ (Finset.range net.E).filter (fun e => net.src e ∈ T), d e := by
    rw [← Finset.sum_fiberwise_of_maps_to (s := (Finset.range net.E).filter (fun e => net.src e ∈ T)) (t := T)
      (g := net.src) (fun e he => (Finset.mem_filter.1 he).2)]
    refine Finset.sum_congr rfl fun u hu => ?_
    unfold gain
    rw [Finset.filter_filter]
    refine Finset.sum_congr ?_ fun _ _ => rfl
    ext e
    simp only [Finset.mem_filter, Finset.mem_range]
    constructor
    · rintro ⟨a, b⟩; exact ⟨a, by rw [b]; exact hu, b⟩
    · rintro ⟨a, -, b⟩; exact ⟨a, b⟩
  rw [h1, ← Finset.sum_filter_add_sum_filter_not _ (fun e => net.dst e ∈ T), Finset.filter_filter,
    Finset.filter_filter, sum_inner ok hd, zero_add]

theorem sum_gain_all (ok : net.OK) {d : Nat → K} (hd : ∀ e, e < net.E → d (e ^^^ 1) = -d e) :
    ∑ u ∈ Finset.range net.N, gain net d u = 0 := by
  rw [sum_gain ok hd]
  apply Finset.sum_eq_zero
  intro e he
  obtain ⟨h1, -, h3⟩ := Finset.mem_filter.1 he
  exact absurd (Finset.mem_range.2 (ok.dst_lt (Finset.mem_range.1 h1))) h3

/-- A node with excess has not moved by more than `(N - 1) g`, if along edges whose residual capacity has grown it moved at most
by `g` more. -/
theorem gap (ok : net.OK) {d Δ : Nat → K} {g : K} (hg : 0 ≤ g)
    (hd : ∀ e, e < net.E → d (e ^^^ 1) = -d e)
    (hedge : ∀ e, e < net.E → 0 < d e → Δ (net.src e) - Δ (net.dst e) ≤ g)
    (hneg : ∀ v, v < net.N → gain net d v < 0 → Δ v ≤ 0)
    {v} (hv : v < net.N) (hact : 0 < gain net d v) :
    Δ v ≤ ((net.N - 1 : Nat) : K) * g := by
  by_contra hc
  rw [not_le] at hc
  let T : Nat → Finset Nat := fun k => (Finset.range net.N).filter (fun u => (k : K) * g < Δ u)
  have hT : ∀ k u, u ∈ T k ↔ u < net.N ∧ (k : K) * g < Δ u := by
    intro k u; simp only [T, Finset.mem_filter, Finset.mem_range]
  have hvT : ∀ k : Nat, k ≤ net.N - 1 → v ∈ T k := by
    intro k hk
    rw [hT]
    refine ⟨hv, lt_of_le_of_lt (mul_le_mul_of_nonneg_right ?_ hg) hc⟩
    exact_mod_cast hk
  have hk1 : ∀ k : Nat, ((k + 1 : Nat) : K) * g = k * g + g := by intro k; push_cast; ring
  have hkg : ∀ k : Nat, 0 ≤ (k : K) * g := fun k => mul_nonneg (by positivity) hg
  have hstep : ∀ k : Nat, k ≤ net.N - 1 → (T (k + 1)).card + 1 ≤ (T k).card := by
    intro k hk
    apply Finset.card_lt_card
    refine ⟨?_, fun hsub => ?_⟩
    · intro u hu
      rw [hT] at hu ⊢
      have := hk1 k
      exact ⟨hu.1, by linarith [hu.2]⟩
    · have h1 : 0 < ∑ u ∈ T k, gain net d u := by
        apply Finset.sum_pos'
        · intro u hu
          rw [hT] at hu
          by_contra h0
          have := hneg u hu.1 (not_le.1 h0)
          linarith [hkg k]
        · exact ⟨v, hvT k hk, hact⟩
      rw [sum_gain ok hd] at h1
      obtain ⟨e, he, hlt⟩ := Finset.exists_lt_of_sum_lt (f := fun _ => (0 : K)) (by simpa using h1)
      obtain ⟨e1, e2, e3⟩ := Finset.mem_filter.1 he
      have e1 := Finset.mem_range.1 e1
      have hde := hedge e e1 hlt
      have hs := ((hT _ _).1 (hsub e2)).2
      have hd' : Δ (net.dst e) ≤ k * g := not_lt.1 fun hh => e3 ((hT k (net.dst e)).2 ⟨ok.dst_lt e1, hh⟩)
      have := hk1 k
      linarith
  have hchain : ∀ k : Nat, k ≤ net.N → (T k).card + k ≤ (T 0).card := by
    intro k
    induction k with
    | zero => intro _; simp
    | succ k ih => intro hk; have := hstep k (by omega); have := ih (by omega); omega
  have h0 : (T 0).card < net.N := by
    have h1 : T 0 ⊂ Finset.range net.N := by
      refine ⟨Finset.filter_subset _ _, fun hsub => ?_⟩
      have h2 : 0 < ∑ u ∈ Finset.range net.N, gain net d u := by
        apply Finset.sum_pos'
        · intro u hu
          have := ((hT 0 u).1 (hsub hu))
          by_contra h0
          have h3 := hneg u this.1 (not_le.1 h0)
          have h4 := this.2
          simp at h4
          linarith
        · exact ⟨v, by simpa using hv, hact⟩
      rw [sum_gain_all ok hd] at h2
      exact lt_irrefl _ h2
    have := Finset.card_lt_card h1
    simpa using this
  have := hchain net.N le_rfl
  omega

/-- Rounding of potentials: `δ`-optimality in units of `1/Q` becomes optimality if `N δ < Q`. -/
theorem exists_round (N Q δ : Nat) (h : N * δ < Q) (P : Nat → Int) :
    ∃ π : Nat → Int, ∀ u v, u < N → v < N → ∀ c : Int, P u - P v ≤ c * Q + δ → π u - π v ≤ c := by
  have hQ : (0 : Int) < Q := by omega
  obtain ⟨θ, h1, h2⟩ := Finset.exists_mem_notMem_of_card_lt_card
    (s := (Finset.range N ×ˢ Finset.range δ).image (fun x => ((-P x.1 - 1 - (x.2 : Int)) % Q).toNat)) (t := Finset.range Q)
    (by
      refine (Finset.card_image_le).trans_lt ?_
      simpa using h)
  refine ⟨fun v => (P v + θ) / Q, fun u v hu hv c hc => ?_⟩
  have key : (P v + θ) % Q < Q - δ := by
    have hlt := Int.emod_lt_of_pos (P v + θ) hQ
    by_contra hcon
    apply h2
    rw [Finset.mem_image]
    refine ⟨(v, ((Q : Int) - 1 - (P v + θ) % Q).toNat), ?_, ?_⟩
    · simp only [Finset.mem_product, Finset.mem_range]
      omega
    · have h3 := Int.mul_ediv_add_emod (P v + θ) Q
      have hθ : (θ : Int) < Q := by rw [Finset.mem_range] at h1; exact_mod_cast h1
      have h4 : ((((Q : Int) - 1 - (P v + θ) % Q).toNat : Nat) : Int) = Q - 1 - (P v + θ) % Q := by omega
      have : -P v - 1 - ((((Q : Int) - 1 - (P v + θ) % Q).toNat : Nat) : Int) = θ + Q * (-((P v + θ) / Q) - 1) := by
        rw [h4, Int.mul_sub, Int.mul_neg]
        omega
      show ((-P v - 1 - ((((Q : Int) - 1 - (P v + θ) % Q).toNat : Nat) : Int)) % Q).toNat = θ
      rw [this, Int.add_mul_emod_self_left, Int.emod_eq_of_lt (by omega) hθ]
      simp
  have k2 := Int.emod_nonneg (P u + θ) (show (Q : Int) ≠ 0 by omega)
  have d1 := Int.mul_ediv_add_emod (P u + θ) Q
  have d2 := Int.mul_ediv_add_emod (P v + θ) Q
  by_contra hcon
  have h3 : (Q : Int) * (c + 1) ≤ Q * ((P u + θ) / Q - (P v + θ) / Q) :=
    Int.mul_le_mul_of_nonneg_left (by dsimp only at hcon; omega) hQ.le
  rw [Int.mul_sub, Int.mul_add, Int.mul_comm (Q : Int) c] at h3
  omega

end AHO.CS
