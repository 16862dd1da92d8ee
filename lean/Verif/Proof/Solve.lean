import Verif.Proof.Calc
import Verif.Proof.Mono
import Mathlib.Algebra.BigOperators.Fin
/-!
# The whole solver
-/

namespace AHO
open Spec
set_option linter.unusedSectionVars false

variable {K : Type} [Field K] [LinearOrder K] [IsStrictOrderedRing K]

/-! ### Capacity of `int` -/

section
variable {imax : Int} {n : Nat} {R W U : Int}

theorem le_bitCeil (m : Nat) : m ≤ bitCeil m := Nat.le_pow_clog (by norm_num) m

theorem bitCeil_ge {n : Nat} {W : Int} (hW : 0 ≤ W) : ((n : Int) + 1) * W ≤ (bitCeil ((n + 1) * W.toNat) : Nat) := by
  have := le_bitCeil ((n + 1) * W.toNat)
  have h2 : (((n + 1) * W.toNat : Nat) : Int) ≤ ((bitCeil ((n + 1) * W.toNat) : Nat) : Int) := by exact_mod_cast this
  push_cast at h2
  rwa [Int.toNat_of_nonneg hW] at h2

theorem bitCeil_pos (m : Nat) : 0 < bitCeil m := by unfold bitCeil; positivity

theorem exp_le (hU : 1 ≤ U) (hUW : U ≤ W) : Flow.epsExp n U - 1 ≤ Nat.clog 2 ((n + 1) * W.toNat) ∧ 1 ≤ Flow.epsExp n U := by
  have h1 := Flow.epsExp_le (n := n) (U := U) (by omega)
  have hpos : (1 : Int) ≤ ((n : Int) + 1) * U := by
    have : (1 : Int) * 1 ≤ ((n : Int) + 1) * U := by apply Int.mul_le_mul <;> omega
    omega
  have hge : 1 ≤ Flow.epsExp n U := by
    by_contra h
    rw [show Flow.epsExp n U = 0 by omega] at h1
    have : 2 * ((n : Int) + 1) * U = 2 * (((n : Int) + 1) * U) := by ring
    omega
  refine ⟨?_, hge⟩
  have h2 := Flow.lt_of_lt_epsExp (n := n) (U := U) (by omega) (t := Flow.epsExp n U - 1) (by omega)
  have h3 := bitCeil_ge (n := n) (W := W) (by omega)
  have h4 : ((n : Int) + 1) * U ≤ ((n : Int) + 1) * W := by
    apply Int.mul_le_mul_of_nonneg_left hUW (by omega)
  by_contra hlt
  have h5 : (2 : Int) ^ (Nat.clog 2 ((n + 1) * W.toNat) + 1) ≤ 2 ^ (Flow.epsExp n U - 1) :=
    pow_le_pow_right₀ (by norm_num) (by omega)
  have h6 : ((bitCeil ((n + 1) * W.toNat) : Nat) : Int) = 2 ^ Nat.clog 2 ((n + 1) * W.toNat) := by
    unfold bitCeil; push_cast; rfl
  rw [pow_succ, ← h6] at h5
  have : 2 * ((n : Int) + 1) * U = 2 * (((n : Int) + 1) * U) := by ring
  omega

theorem pow_exp_le (hU : 1 ≤ U) (hUW : U ≤ W) : (2 : Int) ^ (Flow.epsExp n U - 1) ≤ (bitCeil ((n + 1) * W.toNat) : Nat) := by
  have h6 : ((bitCeil ((n + 1) * W.toNat) : Nat) : Int) = 2 ^ Nat.clog 2 ((n + 1) * W.toNat) := by
    unfold bitCeil; push_cast; rfl
  rw [h6]
  exact pow_le_pow_right₀ (by norm_num) (exp_le hU hUW).1

/-- a number of rounds with which every loop finishes: `m` limits after merging -/
def solveFuel (n m : Nat) (R W : Int) : Nat :=
  Flow.roundFuel n (2 * m) (2 * n * W.toNat + 3 * n + 1) + Nat.clog 2 ((n + 1) * W.toNat) + Flow.bits R + 5

theorem firstB_le (hU : 1 ≤ U) (hR : 0 ≤ R) :
    Flow.firstB n (2 * ((n : Int) + 1) * R) (2 ^ (Flow.epsExp n U - 1)) ≤ 2 * n * R.toNat + n + 1 := by
  have h1 := Flow.epsExp_le (n := n) (U := U) (by omega)
  have h2 := Flow.epsExp_pos (n := n) hU
  have h3 : (2 : Int) ^ Flow.epsExp n U = 2 ^ (Flow.epsExp n U - 1) * 2 := by rw [← pow_succ, Nat.sub_add_cancel h2]
  have h4 : ((n : Int) + 1) * 1 ≤ ((n : Int) + 1) * U := Int.mul_le_mul_of_nonneg_left hU (by omega)
  have h5 : 2 * ((n : Int) + 1) * U = 2 * (((n : Int) + 1) * U) := by ring
  set h : Int := 2 ^ (Flow.epsExp n U - 1) with hh
  have h6 : (2 * ((n : Int) + 1) * R + h - 1) / h ≤ 2 * R := by
    have : (2 * ((n : Int) + 1) * R + h - 1) / h < 2 * R + 1 := by
      rw [Int.ediv_lt_iff_lt_mul (by omega)]
      have : (2 * R) * ((n : Int) + 1) ≤ (2 * R) * h := Int.mul_le_mul_of_nonneg_left (by omega) (by omega)
      have e1 : (2 * R + 1) * h = (2 * R) * h + h := by ring
      have e2 : 2 * ((n : Int) + 1) * R = (2 * R) * ((n : Int) + 1) := by ring
      omega
    omega
  unfold Flow.firstB
  rw [Int.toNat_le]
  have h7 := Int.mul_le_mul_of_nonneg_left h6 (Int.natCast_nonneg n)
  have e3 : ((2 * n * R.toNat + n + 1 : Nat) : Int) = n * (2 * R) + n + 1 := by
    push_cast; rw [Int.toNat_of_nonneg hR]; ring
  rw [e3, Int.mul_add]
  omega

theorem minFuel_le (hU : 1 ≤ U) (hUW : U ≤ W) (hR : 0 ≤ R) (hRW : R ≤ W) (m : Nat) :
    Flow.minFuel n m U R (2 * ((n : Int) + 1) * R) ≤ solveFuel n m R W := by
  have h2 := (exp_le (n := n) hU hUW).1
  have h3 := firstB_le (n := n) hU hR
  have h4 : 2 * n * R.toNat ≤ 2 * n * W.toNat := Nat.mul_le_mul_left _ (by omega)
  unfold Flow.minFuel solveFuel
  have := Flow.roundFuel_mono (n := n) (m := 2 * m) (m' := 2 * m) (B := max (Flow.firstB n (2 * ((n : Int) + 1) * R) (2 ^ (Flow.epsExp n U - 1))) (3 * n + 1))
    (B' := 2 * n * W.toNat + 3 * n + 1) le_rfl (max_le (by omega) (by omega))
  omega

theorem solveFuel_mono {m m' : Nat} (h : m ≤ m') : solveFuel n m R W ≤ solveFuel n m' R W := by
  unfold solveFuel
  have := Flow.roundFuel_mono (n := n) (m := 2 * m) (m' := 2 * m') (B := 2 * n * W.toNat + 3 * n + 1) (by omega) le_rfl
  omega

theorem solveFuel_mono' {m : Nat} {R' : Int} (h : R ≤ R') : solveFuel n m R W ≤ solveFuel n m R' W := by
  have : Nat.log 2 (2 * R).toNat ≤ Nat.log 2 (2 * R').toNat := Nat.log_mono_right (by omega)
  unfold solveFuel Flow.bits
  omega

theorem firstB_near (hU : 1 ≤ U) (hR : 0 ≤ R) (hRU : R ≤ U) :
    Flow.firstB n (2 * ((n : Int) + 1) * R) (2 ^ (Flow.epsExp n U - 1)) ≤ 3 * n + 1 := by
  have h1 := Flow.epsExp_le (n := n) (U := U) (by omega)
  have h2 := Flow.epsExp_pos (n := n) hU
  have h3 : (2 : Int) ^ Flow.epsExp n U = 2 ^ (Flow.epsExp n U - 1) * 2 := by rw [← pow_succ, Nat.sub_add_cancel h2]
  have h4 : 2 * ((n : Int) + 1) * R ≤ 2 * ((n : Int) + 1) * U := Int.mul_le_mul_of_nonneg_left hRU (by omega)
  have h0 : 0 ≤ 2 * ((n : Int) + 1) * R := Int.mul_nonneg (by omega) hR
  have hp : (0 : Int) < 2 ^ (Flow.epsExp n U - 1) := by positivity
  set h : Int := 2 ^ (Flow.epsExp n U - 1) with hh
  have h6 : (2 * ((n : Int) + 1) * R + h - 1) / h ≤ 2 := by
    have : (2 * ((n : Int) + 1) * R + h - 1) / h < 3 := by
      rw [Int.ediv_lt_iff_lt_mul hp]
      omega
    omega
  unfold Flow.firstB
  rw [Int.toNat_le]
  have h7 := Int.mul_le_mul_of_nonneg_left h6 (Int.natCast_nonneg n)
  rw [Int.mul_add]
  push_cast
  omega

/-- iterations that suffice if every range contains zero -/
def nearFuel (n m : Nat) (R W : Int) : Nat :=
  Flow.roundFuel n (2 * m) (3 * n + 1) + Nat.clog 2 ((n + 1) * W.toNat) + Flow.bits R + 5

theorem minFuel_near (hU : 1 ≤ U) (hUW : U ≤ W) (hR : 0 ≤ R) (hRU : R ≤ U) {m m' : Nat} (hm : m ≤ m') {R' : Int} (hR' : R ≤ R') :
    Flow.minFuel n m U R (2 * ((n : Int) + 1) * R) ≤ nearFuel n m' R' W := by
  have h2 := (exp_le (n := n) hU hUW).1
  have h3 := firstB_near (n := n) hU hR hRU
  have h4 : Nat.log 2 (2 * R).toNat ≤ Nat.log 2 (2 * R').toNat := Nat.log_mono_right (by omega)
  unfold Flow.minFuel nearFuel Flow.bits
  rw [max_eq_right h3]
  have := Flow.roundFuel_mono (n := n) (m := 2 * m) (m' := 2 * m') (B := 3 * n + 1) (by omega) le_rfl
  omega

/-! ### From the merged limits on -/

namespace ProblemSolver

/-- the part of `solve` after `merge_limits` -/
def solveLimits {D : Type} [Zero D] [One D] [Add D] [Sub D] [Neg D] [Mul D] [Div D] [IntCast D]
    [LT D] [LE D] [DecidableLT D] [DecidableLE D] [BEq D]
    (imax : Int) (fuel n : Nat) (limits : List (OmegaLimit D)) : Res (Option D) := do
  let (vcm, M, U) ← calc' imax fuel limits
  let flow ← Flow.mk' imax fuel n M U limits
  let (minCost, _) ← Flow.minCost imax fuel flow
  if vcm < minCost then .ok none else .ok (some minCost)

/-- `calc` and the network -/
theorem network_core {limits : List (OmegaLimit K)} {ps : List (Pair K)} {fuel : Nat}
    (hrep : List.Forall₂ OmegaLimit.Is limits ps) (g : ∀ p ∈ ps, ArcIn n R W p) (hR0 : 0 ≤ R) (hRW : R ≤ W)
    (hcap : 6 * ((n : Int) + 1) * (bitCeil ((n + 1) * W.toNat) : Nat) ≤ imax)
    (hz : (∀ p ∈ ps, p.l = p.u) → ∃ π, ArcsFeasible ps π) (hbits : Flow.bits R < fuel)
    (hfuel : ∀ U, 1 ≤ U → U ≤ W → (∀ p ∈ ps, p.u - p.l ≤ U) → Flow.minFuel n limits.length U R (2 * ((n : Int) + 1) * R) ≤ fuel) :
    ∃ U v, calc' imax fuel limits = .ok (vcm ps, bigM ps, U) ∧ 0 ≤ U ∧ U ≤ max 0 W ∧
      ∃ s, Flow.mk' imax fuel n (bigM ps) U limits = .ok s ∧ ∃ s', Flow.minCost imax fuel s = .ok (v, s') ∧
        (∃ π, v = penalised (bigM ps) ps π) ∧ ∀ π, v ≤ penalised (bigM ps) ps π := by
  set b : Int := ((bitCeil ((n + 1) * W.toNat) : Nat) : Int) with hb
  have hb1 : 1 ≤ b := by have := bitCeil_pos ((n + 1) * W.toNat); omega
  have hbW : ((n : Int) + 1) * W ≤ b := bitCeil_ge (by omega)
  have hW1 : W ≤ ((n : Int) + 1) * W := by
    have : (0 : Int) ≤ n * W := Int.mul_nonneg (by omega) (by omega)
    have h' : ((n : Int) + 1) * W = n * W + W := by ring
    omega
  have hbig : ((n : Int) + 1) * 1 ≤ ((n : Int) + 1) * b := Int.mul_le_mul_of_nonneg_left hb1 (by omega)
  have hnb : 0 ≤ (n : Int) * b := Int.mul_nonneg (by omega) (by omega)
  have hcap' : 6 * ((n : Int) * b) + 6 * b ≤ imax := by
    have : 6 * ((n : Int) + 1) * b = 6 * ((n : Int) * b) + 6 * b := by ring
    omega
  have hR2 : 2 * R ≤ imax := by omega
  have hN : 2 * ((n : Int) + 1) ≤ imax := by
    have : ((n : Int) + 1) * b = (n : Int) * b + b := by ring
    omega
  obtain ⟨U, c1, c2, c3, c4⟩ := calcLoop_spec (imax := imax) (fuel := fuel) hR2 hbits limits ps 0 1 0 hrep g
  have hM := bigM_pos g
  rw [zero_add] at c1
  have hvcm : (ps.map mxP).sum = vcm ps := rfl
  have hbm : 1 + (ps.map fun p => mxP p - mnP p).sum = bigM ps := rfl
  rw [hvcm, hbm] at c1
  by_cases hU : U = 0
  · subst hU
    have hpt : ∀ p ∈ ps, p.l = p.u := fun p hp => by have := c3 p hp; have := (g p hp).le; omega
    obtain ⟨s, e1, s', e2⟩ := Flow.minCost_zero (imax := imax) (fuel := fuel) hrep (arcOK_of g) hpt hM.le hR2 hR0 hN (by omega)
    obtain ⟨π, hπ⟩ := hz hpt
    have hv : (ps.map fun p => p.B p.l).sum = arcsCost ps π := by
      unfold arcsCost
      congr 1
      refine List.map_congr_left fun p hp => ?_
      have h1 := hπ p hp
      have h2 := hpt p hp
      rw [show π p.i - π p.j = p.l by omega]
    refine ⟨0, _, c1, le_rfl, by omega, s, e1, s', e2, ⟨π, by rw [hv, penalised_feasible hπ]⟩, fun π' => ?_⟩
    rw [hv]
    unfold arcsCost penalised
    refine sum_map_le fun p hp => ?_
    have h1 := hπ p hp
    have h2 := hpt p hp
    rw [show π p.i - π p.j = p.l by omega]
    have h3 := penal_ge_mn hM.le (g p hp) (π' p.i - π' p.j)
    have h4 : p.B p.l ≤ mnP p := by
      obtain ⟨⟨x, x1, x2, x3⟩, -⟩ := exists_min (g p hp)
      rw [← x3, show x = p.l by omega]
    linarith
  · have hU1 : 1 ≤ U := by omega
    have hUW : U ≤ W := by
      rcases c4 with h | ⟨p, hp, h⟩
      · omega
      · have := (g p hp).wd; omega
    have ht := pow_exp_le (n := n) hU1 hUW
    rw [← hb] at ht
    have ht1 : (0 : Int) < 2 ^ (Flow.epsExp n U - 1) := by positivity
    have hge := (exp_le (n := n) hU1 hUW).2
    obtain ⟨s, e1, v, s', e2, e3, e4⟩ := Flow.minCost_spec (imax := imax) (fuel := fuel) (c := 2 * ((n : Int) + 1) * R) hrep (arcOK_of g)
      hM.le hU1 hR2 hR0 hN
      le_rfl
      (by
        have : (2 : Int) ^ Flow.epsExp n U = 2 ^ (Flow.epsExp n U - 1) * 2 := by
          rw [← pow_succ, Nat.sub_add_cancel hge]
        omega)
      (by
        have hRb : 2 * ((n : Int) + 1) * R ≤ 2 * b := by
          have : ((n : Int) + 1) * R ≤ ((n : Int) + 1) * W := Int.mul_le_mul_of_nonneg_left hRW (by omega)
          have h' : 2 * ((n : Int) + 1) * R = 2 * (((n : Int) + 1) * R) := by ring
          omega
        have h1 : (n : Int) * (2 * ((n : Int) + 1) * R + 2 ^ (Flow.epsExp n U - 1)) ≤ n * (2 * b + b) :=
          Int.mul_le_mul_of_nonneg_left (by omega) (by omega)
        have h2 : (3 * (n : Int) + 1) * (2 ^ (Flow.epsExp n U - 1) - 1) ≤ (3 * (n : Int) + 1) * b :=
          Int.mul_le_mul_of_nonneg_left (by omega) (by omega)
        have h3 : (n : Int) * (2 * b + b) = 3 * (n * b) := by ring
        have h4 : (3 * (n : Int) + 1) * b = 3 * (n * b) + b := by ring
        omega)
      (hfuel U hU1 hUW c3)
    exact ⟨U, v, c1, by omega, by omega, s, e1, s', e2, e3, e4⟩

theorem network_spec {limits : List (OmegaLimit K)} {ps : List (Pair K)} {fuel : Nat}
    (hrep : List.Forall₂ OmegaLimit.Is limits ps) (g : ∀ p ∈ ps, ArcIn n R W p) (hR0 : 0 ≤ R) (hRW : R ≤ W)
    (hcap : 6 * ((n : Int) + 1) * (bitCeil ((n + 1) * W.toNat) : Nat) ≤ imax)
    (hz : (∀ p ∈ ps, p.l = p.u) → ∃ π, ArcsFeasible ps π) (hfuel : solveFuel n limits.length R W ≤ fuel) :
    ∃ U v, calc' imax fuel limits = .ok (vcm ps, bigM ps, U) ∧ 0 ≤ U ∧ U ≤ max 0 W ∧
      ∃ s, Flow.mk' imax fuel n (bigM ps) U limits = .ok s ∧ ∃ s', Flow.minCost imax fuel s = .ok (v, s') ∧
        (∃ π, v = penalised (bigM ps) ps π) ∧ ∀ π, v ≤ penalised (bigM ps) ps π :=
  network_core hrep g hR0 hRW hcap hz (by unfold solveFuel at hfuel; omega) fun _ h1 h2 _ =>
    le_trans (minFuel_le h1 h2 hR0 hRW _) hfuel

theorem solveLimits_core {limits : List (OmegaLimit K)} {ps : List (Pair K)} {fuel : Nat}
    (hrep : List.Forall₂ OmegaLimit.Is limits ps) (g : ∀ p ∈ ps, ArcIn n R W p) (hR0 : 0 ≤ R) (hRW : R ≤ W)
    (hcap : 6 * ((n : Int) + 1) * (bitCeil ((n + 1) * W.toNat) : Nat) ≤ imax)
    (hz : (∀ p ∈ ps, p.l = p.u) → ∃ π, ArcsFeasible ps π) (hbits : Flow.bits R < fuel)
    (hfuel : ∀ U, 1 ≤ U → U ≤ W → (∀ p ∈ ps, p.u - p.l ≤ U) → Flow.minFuel n limits.length U R (2 * ((n : Int) + 1) * R) ≤ fuel) :
    ∃ r, solveLimits imax fuel n limits = .ok r ∧ Outcome (costs ps) r := by
  obtain ⟨U, v, c1, -, -, s, e1, s', e2, e3, e4⟩ := network_core hrep g hR0 hRW hcap hz hbits hfuel
  unfold solveLimits
  rw [c1, ok_bind]
  dsimp only
  rw [e1, ok_bind, e2, ok_bind]
  dsimp only
  rw [← apply_ite Except.ok]
  exact ⟨_, rfl, outcome_of_min g e3 e4⟩

theorem solveLimits_spec {limits : List (OmegaLimit K)} {ps : List (Pair K)} {fuel : Nat}
    (hrep : List.Forall₂ OmegaLimit.Is limits ps) (g : ∀ p ∈ ps, ArcIn n R W p) (hR0 : 0 ≤ R) (hRW : R ≤ W)
    (hcap : 6 * ((n : Int) + 1) * (bitCeil ((n + 1) * W.toNat) : Nat) ≤ imax)
    (hz : (∀ p ∈ ps, p.l = p.u) → ∃ π, ArcsFeasible ps π) (hfuel : solveFuel n limits.length R W ≤ fuel) :
    ∃ r, solveLimits imax fuel n limits = .ok r ∧ Outcome (costs ps) r :=
  solveLimits_core hrep g hR0 hRW hcap hz (by unfold solveFuel at hfuel; omega) fun _ h1 h2 _ =>
    le_trans (minFuel_le h1 h2 hR0 hRW _) hfuel

/-! ### The constructor -/

theorem checkMus_spec {Mus : List (MuLimit K)} : ∀ (cnt i : Nat), i + cnt ≤ Mus.length →
    ∃ b, checkMus Mus i cnt = .ok b ∧ (b = true ↔ ∀ k, (hk : k < Mus.length) → i ≤ k → k < i + cnt → Mus[k].l ≤ Mus[k].u) := by
  intro cnt
  induction cnt with
  | zero => intro i _; exact ⟨true, rfl, by simp; intro k _ h1 h2; omega⟩
  | succ cnt ih =>
    intro i h
    unfold checkMus
    rw [listRd_ok (by omega : i < Mus.length), ok_bind]
    by_cases hle : Mus[i].l ≤ Mus[i].u
    · rw [if_pos hle]
      obtain ⟨b, b1, b2⟩ := ih (i + 1) (by omega)
      refine ⟨b, b1, b2.trans ⟨fun hh k hk h1 h2 => ?_, fun hh k hk h1 h2 => hh k hk (by omega) (by omega)⟩⟩
      by_cases hki : k = i
      · subst hki; exact hle
      · exact hh k hk (by omega) (by omega)
    · rw [if_neg hle]
      refine ⟨false, rfl, ⟨fun h => by simp at h, fun hh => ?_⟩⟩
      exact absurd (hh i (by omega) le_rfl (by omega)) hle

/-- the pair `p` after `pre_processing`: the cost of a difference `x` is the least cost of an admissible `ω ≥ x` -/
structure Covers (P : Problem K) (p q : Pair K) : Prop where
  i : q.i = p.i
  j : q.j = p.j
  l : q.l ≤ P.lo p.i - P.hi p.j
  u : q.u = p.u
  att : ∀ x, x ≤ p.u → ∃ y, p.l ≤ y ∧ x ≤ y ∧ y ≤ p.u ∧ q.B x = p.B y
  le : ∀ x y, x ≤ y → p.l ≤ y → y ≤ p.u → q.B x ≤ p.B y

/-- the same, with the range which the constructor uses -/
structure Relaxed (P : Problem K) (p q : Pair K) : Prop extends Covers P p q where
  l_eq : q.l = P.lo p.i - P.hi p.j

theorem processOmegas_spec {P : Problem K} {Mus : List (MuLimit K)} {fuel : Nat} (hlen : Mus.length = P.n + 1)
    (hmus : ∀ (i : Nat) (h : i < Mus.length), 1 ≤ i → Mus[i].l = P.lo i ∧ Mus[i].u = P.hi i)
    (wn : ∀ i, 1 ≤ i → i ≤ P.n → P.lo i ≤ P.hi i)
    (hlo : ∀ i, 1 ≤ i → i ≤ P.n → -R ≤ P.lo i) (hhi : ∀ i, 1 ≤ i → i ≤ P.n → P.hi i ≤ R)
    (hR : 2 * R ≤ imax) (hR0 : 0 ≤ R) (hf : Flow.bits imax < fuel) :
    ∀ (Os : List (OmegaLimit K)) (ps : List (Pair K)), List.Forall₂ OmegaLimit.Is Os ps →
    (∀ p ∈ ps, 1 ≤ p.i ∧ p.i ≤ P.n ∧ 1 ≤ p.j ∧ p.j ≤ P.n ∧ p.i ≠ p.j ∧ p.l ≤ p.u ∧ (-imax - 1 ≤ p.l ∧ p.u - p.l ≤ imax) ∧ p.u ≤ R ∧
      -R ≤ P.lo p.i - P.hi p.j ∧ p.u - (P.lo p.i - P.hi p.j) ≤ W ∧ Convex p.B p.l p.u) →
    (processOmegas imax fuel P.n Mus Os = .ok none ∧ ∃ p ∈ ps, p.u < P.lo p.i - P.hi p.j) ∨
    ∃ Os' qs, processOmegas imax fuel P.n Mus Os = .ok (some Os') ∧ List.Forall₂ OmegaLimit.Is Os' qs ∧
      List.Forall₂ (Relaxed P) ps qs ∧ ∀ q ∈ qs, ArcIn P.n R W q := by
  intro Os
  induction Os with
  | nil =>
    intro ps h _
    cases h
    exact .inr ⟨[], [], rfl, .nil, .nil, by simp⟩
  | cons e Os ih =>
    intro ps h g
    cases h with
    | cons he hrest =>
      rename_i p ps
      obtain ⟨g1, g2, g3, g4, g5, g6, g7, g8, g9, g10, g11⟩ := g p (by simp)
      unfold processOmegas
      rw [if_neg (by rw [he.i]; simp; omega), if_neg (by rw [he.j]; simp; omega),
        if_neg (by rw [he.i, he.j]; simpa using g5), if_neg (by rw [he.l, he.u]; omega)]
      have hfit : Fits imax (Flow.bits imax) p.l p.u := ⟨g6, by omega, by omega, by omega, Flow.bits_spec (by omega)⟩
      obtain ⟨fn', g', p1, p2, p3, p4, p5⟩ := preProcessing_spec (imax := imax) (e := e) (g := p.B) hf
        (by rw [he.l, he.u]; exact hfit) (by rw [he.l, he.u]; exact he.fn) (by rw [he.l, he.u]; exact g11)
      rw [he.u] at p2
      rw [he.l, he.u] at p3 p4
      rw [p1, ok_bind]
      dsimp only
      have hi : e.i < Mus.length := by rw [he.i]; omega
      have hj : e.j < Mus.length := by rw [he.j]; omega
      have hmi := hmus e.i hi (by rw [he.i]; omega)
      have hmj := hmus e.j hj (by rw [he.j]; omega)
      simp only [he.i] at hmi
      simp only [he.j] at hmj
      have b1 := hhi p.i g1 g2
      have b2 := hlo p.j g3 g4
      have b3 := wn p.i g1 g2
      have b4 := wn p.j g3 g4
      rw [listRd_ok hi, ok_bind, listRd_ok hj, ok_bind]
      simp only [he.i, he.j]
      rw [hmi.1, hmj.2, ck_ok (by omega) (by omega), ok_bind]
      simp only [he.u]
      by_cases hle : P.lo p.i - P.hi p.j ≤ p.u
      · rw [if_neg (not_not.2 hle)]
        rcases ih ps hrest (fun q hq => g q (List.mem_cons_of_mem _ hq)) with ⟨d1, q, hq, d2⟩ | ⟨Os', qs, d1, d2, d3, d4⟩
        · refine .inl ⟨?_, q, by simp [hq], d2⟩
          rw [d1]; rfl
        · refine .inr ⟨_, ⟨p.i, p.j, P.lo p.i - P.hi p.j, p.u, g'⟩ :: qs, by rw [d1, ok_bind]; rfl, ?_, ?_, ?_⟩
          · exact .cons ⟨rfl, rfl, rfl, rfl, fun x _ hx => p2 x hx⟩ d2
          · exact .cons ⟨⟨rfl, rfl, le_rfl, rfl, p3, p4⟩, rfl⟩ d3
          · intro q hq
            rcases List.mem_cons.1 hq with rfl | hq
            · refine ⟨g2, g4, g5, hle, g9, g8, g10, ?_⟩
              have := p5 (P.lo p.i - P.hi p.j)
              rw [he.u] at this
              exact this
            · exact d4 q hq
      · rw [if_pos hle]
        exact .inl ⟨rfl, p, by simp, by omega⟩

theorem musEdges_spec {P : Problem K} {Mus : List (MuLimit K)} (hlen : Mus.length = P.n + 1)
    (hmus : ∀ (i : Nat) (h : i < Mus.length), 1 ≤ i → Mus[i].Is (P.lo i) (P.hi i) (P.F i)) :
    ∀ (cnt i : Nat), 1 ≤ i → i + cnt ≤ P.n + 1 →
    ∃ es, musEdges Mus i cnt = .ok es ∧
      List.Forall₂ OmegaLimit.Is es ((List.range' i cnt).map fun k => ⟨k, 0, P.lo k, P.hi k, P.F k⟩) := by
  intro cnt
  induction cnt with
  | zero => intro i _ _; exact ⟨[], rfl, .nil⟩
  | succ cnt ih =>
    intro i h1 h2
    obtain ⟨es, e1, e2⟩ := ih (i + 1) (by omega) (by omega)
    unfold musEdges
    have hi : i < Mus.length := by omega
    have hm := hmus i hi h1
    rw [listRd_ok hi, ok_bind, e1, ok_bind]
    refine ⟨_, rfl, ?_⟩
    rw [List.range'_succ, List.map_cons]
    exact .cons ⟨rfl, rfl, hm.l, hm.u, hm.fn⟩ e2

/-- the node limits as arcs to node `0` -/
def musP (P : Problem K) : List (Pair K) := (List.range' 1 P.n).map fun k => ⟨k, 0, P.lo k, P.hi k, P.F k⟩

theorem mem_musP {P : Problem K} {p : Pair K} : p ∈ musP P ↔ ∃ k, 1 ≤ k ∧ k ≤ P.n ∧ p = ⟨k, 0, P.lo k, P.hi k, P.F k⟩ := by
  unfold musP
  rw [List.mem_map]
  constructor
  · rintro ⟨k, hk, rfl⟩
    rw [List.mem_range'_1] at hk
    exact ⟨k, by omega, by omega, rfl⟩
  · rintro ⟨k, h1, h2, rfl⟩
    exact ⟨k, by rw [List.mem_range'_1]; omega, rfl⟩

theorem cost_musP (P : Problem K) (π : Nat → Int) :
    arcsCost (musP P) π = ∑ i ∈ Finset.Icc 1 P.n, P.F i (π i - π 0) := by
  unfold arcsCost musP
  rw [List.map_map]
  rfl

theorem arcsCost_fin {ps qs : List (Pair K)} (h : ps.length = qs.length) (π : Nat → Int) :
    arcsCost qs π = ∑ k : Fin ps.length, (qs[k.1]'(by rw [← h]; exact k.2)).B
      (π (qs[k.1]'(by rw [← h]; exact k.2)).i - π (qs[k.1]'(by rw [← h]; exact k.2)).j) := by
  unfold arcsCost
  rw [← Fin.sum_univ_fun_getElem]
  exact (Fintype.sum_equiv (finCongr h) _ _ fun k => rfl).symm

/-- costs of feasible assignments -/
def problemCosts (P : Problem K) : Set K := {v | ∃ μ ω, Feasible P μ ω ∧ cost P μ ω = v}

section
variable {P : Problem K} {qs : List (Pair K)} (hq : List.Forall₂ (Covers P) P.pairs qs)
include hq

theorem relaxed_le (wf : WellFormed P) {μ ω : Nat → Int} (h : Feasible P μ ω) :
    ∃ π, ArcsFeasible (qs ++ musP P) π ∧ arcsCost (qs ++ musP P) π ≤ cost P μ ω := by
  have hlen := hq.length_eq
  have hget : ∀ k, (hk : k < P.pairs.length) → Covers P P.pairs[k] (qs[k]'(by omega)) := fun k hk =>
    (List.forall₂_iff_get.1 hq).2 k hk (by omega)
  have hpi : ∀ {p}, p ∈ P.pairs → p.i ≠ 0 := fun hp => by have := wf.i_pos _ hp; omega
  have hpj : ∀ {p}, p ∈ P.pairs → p.j ≠ 0 := fun hp => by have := wf.j_pos _ hp; omega
  refine ⟨fun i => if i = 0 then 0 else μ i, ?_, ?_⟩
  · rw [arcsFeasible_append]
    constructor
    · intro q hqm
      obtain ⟨k, hk, rfl⟩ := List.getElem_of_mem hqm
      have r := hget k (by omega)
      have hp := List.getElem_mem (show k < P.pairs.length by omega)
      have f := h.2 k (by omega)
      have rl := r.l
      rw [r.i, r.j, r.u]
      dsimp only
      rw [if_neg (hpi hp), if_neg (hpj hp)]
      have h1 := h.1 _ (wf.i_pos _ hp) (wf.i_le _ hp)
      have h2 := h.1 _ (wf.j_pos _ hp) (wf.j_le _ hp)
      omega
    · intro q hqm
      obtain ⟨k, k1, k2, rfl⟩ := mem_musP.1 hqm
      have := h.1 k k1 k2
      simp only [if_true]
      rw [if_neg (by omega)]
      omega
  · rw [arcsCost_append, cost_musP, arcsCost_fin hlen, add_comm, cost]
    refine add_le_add (le_of_eq ?_) ?_
    · refine Finset.sum_congr rfl fun i hi => ?_
      rw [Finset.mem_Icc] at hi
      simp only [if_true]
      rw [if_neg (by omega), sub_zero]
    · refine Finset.sum_le_sum fun k _ => ?_
      have r := hget k.1 k.2
      have hp := List.getElem_mem k.2
      have f := h.2 k.1 k.2
      rw [r.i, r.j, if_neg (hpi hp), if_neg (hpj hp)]
      exact r.le _ _ f.2.2 f.1 f.2.1

theorem relaxed_ge {π : Nat → Int} (h : ArcsFeasible (qs ++ musP P) π) :
    ∃ ω, Feasible P (fun i => π i - π 0) ω ∧ cost P (fun i => π i - π 0) ω = arcsCost (qs ++ musP P) π := by
  have hlen := hq.length_eq
  have hget : ∀ k, (hk : k < P.pairs.length) → Covers P P.pairs[k] (qs[k]'(by omega)) := fun k hk =>
    (List.forall₂_iff_get.1 hq).2 k hk (by omega)
  rw [arcsFeasible_append] at h
  have hω : ∀ k, ∃ y, (hk : k < P.pairs.length) → P.pairs[k].l ≤ y ∧ π P.pairs[k].i - π P.pairs[k].j ≤ y ∧
      y ≤ P.pairs[k].u ∧ (qs[k]'(by omega)).B (π P.pairs[k].i - π P.pairs[k].j) = P.pairs[k].B y := by
    intro k
    by_cases hk : k < P.pairs.length
    · have r := hget k hk
      have f := h.1 _ (List.getElem_mem (show k < qs.length by omega))
      rw [r.i, r.j, r.u] at f
      obtain ⟨y, h1, h2, h3, h4⟩ := r.att _ f.2
      exact ⟨y, fun _ => ⟨h1, h2, h3, h4⟩⟩
    · exact ⟨0, fun hk' => absurd hk' hk⟩
  choose ω hω using hω
  refine ⟨ω, ⟨fun i h1 h2 => ?_, fun k hk => ?_⟩, ?_⟩
  · exact h.2 _ (mem_musP.2 ⟨i, h1, h2, rfl⟩)
  · have := hω k hk
    exact ⟨this.1, this.2.2.1, by dsimp only; omega⟩
  · rw [arcsCost_append, cost_musP, arcsCost_fin hlen, cost, add_comm]
    congr 1
    refine Finset.sum_congr rfl fun k _ => ?_
    have r := hget k.1 k.2
    rw [r.i, r.j]
    exact (hω k.1 k.2).2.2.2.symm

theorem outcome_relaxed (wf : WellFormed P) {r : Option K} (h : Outcome (costs (qs ++ musP P)) r) :
    Outcome (problemCosts P) r := by
  rcases h with ⟨h1, h2⟩ | ⟨v, h1, h2, h3⟩
  · refine .inl ⟨h1, ?_⟩
    ext w
    simp only [problemCosts, Set.mem_ofPred_eq, Set.mem_empty_iff_false, iff_false]
    rintro ⟨μ, ω, f, -⟩
    obtain ⟨π, p1, p2⟩ := relaxed_le hq wf f
    have : arcsCost (qs ++ musP P) π ∈ costs (qs ++ musP P) := ⟨π, p1, rfl⟩
    rw [h2] at this
    exact this
  · refine .inr ⟨v, h1, ?_, ?_⟩
    · obtain ⟨π, p1, p2⟩ := h2
      obtain ⟨ω, f1, f2⟩ := relaxed_ge hq p1
      exact ⟨_, ω, f1, by rw [f2, p2]⟩
    · rintro w ⟨μ, ω, f, rfl⟩
      obtain ⟨π, p1, p2⟩ := relaxed_le hq wf f
      exact le_trans (h3 ⟨π, p1, rfl⟩) p2

end

/-- the part of a run before `calc`: the merged limits, or nothing -/
def front {D : Type} [Add D] [LT D] [DecidableLT D] (imax : Int) (fuel n : Nat) (Mus : List (MuLimit D))
    (Omegas : List (OmegaLimit D)) : Res (Option (List (OmegaLimit D))) := do
  let s ← mk' imax fuel n Mus Omegas
  if s.n = sizeMax then .ok none else mergeLimits imax s

theorem run_front {D : Type} [Zero D] [One D] [Add D] [Sub D] [Neg D] [Mul D] [Div D] [IntCast D]
    [LT D] [LE D] [DecidableLT D] [DecidableLE D] [BEq D] {fuel n : Nat} (hn : n + 1 < 2 ^ 64) (Mus : List (MuLimit D))
    (Omegas : List (OmegaLimit D)) :
    run imax fuel n Mus Omegas = front imax fuel n Mus Omegas >>= fun r =>
      match r with
      | none => .ok none
      | some limits => solveLimits imax fuel n limits := by
  unfold run front
  have hmk : ∀ s, mk' imax fuel n Mus Omegas = .ok s → s.n = sizeMax ∨ s.n = n := by
    intro s h
    unfold mk' at h
    split at h
    · cases h; exact .inl rfl
    · cases hc : checkMus Mus 1 n with
      | error e => rw [hc] at h; cases h
      | ok b =>
        rw [hc, ok_bind] at h
        split at h
        · cases h; exact .inl rfl
        · cases hp : processOmegas imax fuel n Mus Omegas with
          | error e => rw [hp] at h; cases h
          | ok r =>
            rw [hp, ok_bind] at h
            cases r with
            | none => cases h; exact .inl rfl
            | some Os => cases h; exact .inr rfl
  cases hm : mk' imax fuel n Mus Omegas with
  | error e => rfl
  | ok s =>
    rw [ok_bind, ok_bind]
    unfold solve
    rcases hmk s hm with h | h
    · rw [if_pos h, if_pos h]; rfl
    · rw [if_neg (by rw [h]; unfold sizeMax; omega), if_neg (by rw [h]; unfold sizeMax; omega), h]
      cases mergeLimits imax s with
      | error e => rfl
      | ok r => cases r <;> rfl

theorem capacity_range {n : Nat} (hR0 : 0 ≤ R) (hRW : R ≤ W)
    (hcap : 6 * ((n : Int) + 1) * (bitCeil ((n + 1) * W.toNat) : Nat) ≤ imax) : 2 * R ≤ imax := by
  have h1 := bitCeil_ge (n := n) (W := W) (by omega)
  set b : Int := ((bitCeil ((n + 1) * W.toNat) : Nat) : Int) with hb
  have hnb : 0 ≤ (n : Int) * b := Int.mul_nonneg (by omega) (by omega)
  have h2 : 6 * ((n : Int) + 1) * b = 6 * ((n : Int) * b) + 6 * b := by ring
  have h3 : ((n : Int) + 1) * W = n * W + W := by ring
  have h4 : (0 : Int) ≤ n * W := Int.mul_nonneg (by omega) (by omega)
  omega

theorem front_core {P : Problem K} {Mus : List (MuLimit K)} {Omegas : List (OmegaLimit K)} {fuel : Nat}
    (rep : Represents P Mus Omegas) (wf : WellFormed P) (cv : ConvexCosts P) (wi : Within P R) (wd : Widths P W)
    (ri : Representable imax P)
    (hn : P.n + 1 < 2 ^ 64) (hR0 : 0 ≤ R) (hR2 : 2 * R ≤ imax) (hbits : Flow.bits imax < fuel) :
    (front imax fuel P.n Mus Omegas = .ok none ∧ problemCosts P = ∅) ∨
    ∃ limits ps, front imax fuel P.n Mus Omegas = .ok (some limits) ∧ List.Forall₂ OmegaLimit.Is limits ps ∧
      (∀ p ∈ ps, ArcIn P.n R W p) ∧ limits.length ≤ P.pairs.length + P.n ∧
      ((∀ p ∈ ps, p.l = p.u) → ∃ π, ArcsFeasible ps π) ∧
      (∀ r, Outcome (costs ps) r → Outcome (problemCosts P) r) ∧
      ((∀ i, 1 ≤ i → i ≤ P.n → P.lo i ≤ 0 ∧ 0 ≤ P.hi i) → (∀ p ∈ P.pairs, 0 ≤ p.u) → ∀ p ∈ ps, p.l ≤ 0 ∧ 0 ≤ p.u) ∧
      (∀ π, ArcsFeasible ps π → ∃ ω, Feasible P (fun i => π i - π 0) ω ∧ cost P (fun i => π i - π 0) ω = arcsCost ps π) ∧
      (∀ p ∈ musP P, p ∈ ps) := by
  have hmus : ∀ (i : Nat) (h : i < Mus.length), 1 ≤ i → Mus[i].l = P.lo i ∧ Mus[i].u = P.hi i := fun i h h1 =>
    ⟨(rep.mus i h h1).l, (rep.mus i h h1).u⟩
  have hlen := rep.len
  obtain ⟨b, c1, c2⟩ := checkMus_spec (Mus := Mus) P.n 1 (by omega)
  have hb : b = true := by
    rw [c2]
    intro k hk h1 h2
    rw [(hmus k hk h1).1, (hmus k hk h1).2]
    exact wf.nodes k h1 (by omega)
  have hneg : ¬ Solvable P → problemCosts P = ∅ := by
    intro h
    ext w
    simp only [problemCosts, Set.mem_ofPred_eq, Set.mem_empty_iff_false, iff_false]
    rintro ⟨μ, ω, f, -⟩
    exact h ⟨μ, ω, f⟩
  unfold front mk'
  rw [if_neg (by rw [hlen, Nat.mod_eq_of_lt hn]; simp), c1, ok_bind, hb]
  simp only [not_true_eq_false, if_false]
  rcases processOmegas_spec (imax := imax) (R := R) (W := W) (fuel := fuel) hlen hmus wf.nodes wi.lo wi.hi hR2 hR0 hbits
    Omegas P.pairs rep.omegas (fun p hp => ⟨wf.i_pos p hp, wf.i_le p hp, wf.j_pos p hp, wf.j_le p hp, wf.ne p hp,
      wf.le p hp, ⟨ri.lo p hp, ri.width p hp⟩, wi.u p hp, wi.diff p hp, wd.pairs p hp, cv.pairs p hp⟩) with
    ⟨d1, p, hp, d2⟩ | ⟨Os, qs, d1, d2, d3, d4⟩
  · refine .inl ⟨?_, hneg ?_⟩
    · rw [d1]; rfl
    · rintro ⟨μ, ω, f⟩
      obtain ⟨k, hk, rfl⟩ := List.getElem_of_mem hp
      have h0 := f.2 k hk
      have h1 := f.1 _ (wf.i_pos _ hp) (wf.i_le _ hp)
      have h2 := f.1 _ (wf.j_pos _ hp) (wf.j_le _ hp)
      omega
  · rw [d1, ok_bind]
    dsimp only
    rw [ok_bind]
    rw [if_neg (by unfold sizeMax; dsimp only; omega)]
    unfold mergeLimits
    dsimp only
    rcases mergeLoop_spec (imax := imax) (n := P.n) (R := R) (W := W) (by omega) Os qs [] [] d2 .nil .nil d4 (by simp) with
      ⟨m1, m2⟩ | ⟨mp, ps', m1, m2, m3, m4, m5, m6⟩
    · refine .inl ⟨by rw [m1]; rfl, hneg ?_⟩
      rintro ⟨μ, ω, f⟩
      obtain ⟨π, p1, -⟩ := relaxed_le (d3.imp fun _ _ h => h.toCovers) wf f
      exact m2 π ⟨(arcsFeasible_append.1 p1).1, by simp [ArcsFeasible]⟩
    · obtain ⟨es, e1, e2⟩ := musEdges_spec hlen rep.mus P.n 1 le_rfl (by omega)
      rw [m1, ok_bind]
      dsimp only
      rw [e1, ok_bind]
      have m6' : ∀ π, (ArcsFeasible ps' π ↔ ArcsFeasible qs π) ∧ arcsCost ps' π = arcsCost qs π := by
        intro π
        have := m6 π
        simpa [ArcsFeasible, arcsCost] using this
      have hlim : List.Forall₂ OmegaLimit.Is (mp.map Prod.snd ++ es) (ps' ++ musP P) := by
        refine List.rel_append ?_ e2
        rw [List.forall₂_map_left_iff]
        exact m2.imp fun _ _ h => h.1
      have hin : ∀ p ∈ ps' ++ musP P, ArcIn P.n R W p := by
        intro p hp
        rcases List.mem_append.1 hp with hp | hp
        · exact m4 p hp
        · obtain ⟨k, k1, k2, rfl⟩ := mem_musP.1 hp
          exact ⟨k2, Nat.zero_le _, by dsimp only; omega, wf.nodes k k1 k2, wi.lo k k1 k2, wi.hi k k1 k2,
            wd.nodes k k1 k2, cv.nodes k k1 k2⟩
      have hlenl : (mp.map Prod.snd ++ es).length ≤ P.pairs.length + P.n := by
        have h1 := e2.length_eq
        have h2 := d2.length_eq
        have h3 := d3.length_eq
        simp at h1 m5 ⊢
        omega
      refine .inr ⟨_, ps' ++ musP P, rfl, hlim, hin, hlenl, ?_, fun r r2 => outcome_relaxed (d3.imp fun _ _ h => h.toCovers) wf ?_, ?_, fun π h => ?_, fun p hp => List.mem_append_right _ hp⟩
      · intro hpt
        refine ⟨fun i => if i = 0 then 0 else P.lo i, ?_⟩
        have hnode : ∀ k, 1 ≤ k → k ≤ P.n → P.lo k = P.hi k := fun k k1 k2 =>
          hpt _ (List.mem_append_right _ (mem_musP.2 ⟨k, k1, k2, rfl⟩))
        rw [arcsFeasible_append]
        constructor
        · rw [(m6' _).1]
          intro q hqm
          obtain ⟨k, hk, rfl⟩ := List.getElem_of_mem hqm
          have hk' : k < P.pairs.length := by rw [d3.length_eq]; exact hk
          have rl : Relaxed P P.pairs[k] qs[k] := (List.forall₂_iff_get.1 d3).2 k hk' hk
          have hp := List.getElem_mem hk'
          have i1 := wf.i_pos _ hp
          have j1 := wf.j_pos _ hp
          have hj := hnode _ j1 (wf.j_le _ hp)
          have hle := (d4 _ hqm).le
          have hl := rl.l_eq
          rw [rl.i, rl.j]
          dsimp only
          rw [if_neg (by omega), if_neg (by omega)]
          omega
        · intro q hqm
          obtain ⟨k, k1, k2, rfl⟩ := mem_musP.1 hqm
          have := hnode k k1 k2
          simp only [if_true]
          rw [if_neg (by omega)]
          omega
      · have hset : costs (ps' ++ musP P) = costs (qs ++ musP P) := by
          ext w
          simp only [costs, Set.mem_ofPred_eq, arcsFeasible_append, arcsCost_append, (m6' _).1, (m6' _).2]
        rw [← hset]
        exact r2
      · intro z zu
        have hq : ArcsFeasible qs 0 := by
          intro q hqm
          obtain ⟨k, hk, rfl⟩ := List.getElem_of_mem hqm
          have hk' : k < P.pairs.length := by rw [d3.length_eq]; exact hk
          have rl : Relaxed P P.pairs[k] qs[k] := (List.forall₂_iff_get.1 d3).2 k hk' hk
          have hp := List.getElem_mem hk'
          have h1 := z _ (wf.i_pos _ hp) (wf.i_le _ hp)
          have h2 := z _ (wf.j_pos _ hp) (wf.j_le _ hp)
          have h3 := zu _ hp
          have hl := rl.l_eq
          have hu := rl.u
          simp only [Pi.zero_apply]
          omega
        have hp0 := (m6' 0).1.2 hq
        intro p hp
        rcases List.mem_append.1 hp with hp | hp
        · have := hp0 p hp
          simp only [Pi.zero_apply] at this
          omega
        · obtain ⟨k, k1, k2, rfl⟩ := mem_musP.1 hp
          exact z k k1 k2
      · rw [arcsFeasible_append, (m6' _).1, ← arcsFeasible_append] at h
        obtain ⟨ω, f1, f2⟩ := relaxed_ge (d3.imp fun _ _ h => h.toCovers) h
        exact ⟨ω, f1, by rw [f2, arcsCost_append, arcsCost_append, (m6' _).2]⟩

theorem front_spec {P : Problem K} {Mus : List (MuLimit K)} {Omegas : List (OmegaLimit K)} {fuel : Nat}
    (rep : Represents P Mus Omegas) (wf : WellFormed P) (cv : ConvexCosts P) (wi : Within P R) (wd : Widths P W)
    (ri : Representable imax P)
    (hn : P.n + 1 < 2 ^ 64) (hR0 : 0 ≤ R) (hR2 : 2 * R ≤ imax) (hbits : Flow.bits imax < fuel) :
    (front imax fuel P.n Mus Omegas = .ok none ∧ problemCosts P = ∅) ∨
    ∃ limits ps, front imax fuel P.n Mus Omegas = .ok (some limits) ∧ List.Forall₂ OmegaLimit.Is limits ps ∧
      (∀ p ∈ ps, ArcIn P.n R W p) ∧ limits.length ≤ P.pairs.length + P.n ∧
      ((∀ p ∈ ps, p.l = p.u) → ∃ π, ArcsFeasible ps π) ∧
      (∀ r, Outcome (costs ps) r → Outcome (problemCosts P) r) ∧
      ((∀ i, 1 ≤ i → i ≤ P.n → P.lo i ≤ 0 ∧ 0 ≤ P.hi i) → (∀ p ∈ P.pairs, 0 ≤ p.u) → ∀ p ∈ ps, p.l ≤ 0 ∧ 0 ≤ p.u) := by
  rcases front_core rep wf cv wi wd ri hn hR0 hR2 hbits with h | ⟨limits, ps, h1, h2, h3, h4, h5, h6, h7, -⟩
  · exact .inl h
  · exact .inr ⟨limits, ps, h1, h2, h3, h4, h5, h6, h7⟩

theorem run_spec {P : Problem K} {Mus : List (MuLimit K)} {Omegas : List (OmegaLimit K)} {fuel : Nat}
    (rep : Represents P Mus Omegas) (wf : WellFormed P) (cv : ConvexCosts P) (wi : Within P R) (wd : Widths P W)
    (ri : Representable imax P)
    (hn : P.n + 1 < 2 ^ 64) (hR0 : 0 ≤ R) (hRW : R ≤ W)
    (hcap : 6 * ((P.n : Int) + 1) * (bitCeil ((P.n + 1) * W.toNat) : Nat) ≤ imax)
    (hfuel : solveFuel P.n (P.pairs.length + P.n) imax W ≤ fuel) :
    ∃ r, run imax fuel P.n Mus Omegas = .ok r ∧ Outcome (problemCosts P) r := by
  have hbits : Flow.bits imax < fuel := by unfold solveFuel at hfuel; omega
  have hR2 := capacity_range hR0 hRW hcap
  rw [run_front hn]
  rcases front_spec rep wf cv wi wd ri hn hR0 hR2 hbits with ⟨h1, h2⟩ | ⟨limits, ps, h1, h2, h3, h4, h5, h6, -⟩
  · exact ⟨none, by rw [h1]; rfl, .inl ⟨rfl, h2⟩⟩
  · obtain ⟨r, r1, r2⟩ := solveLimits_spec (imax := imax) (fuel := fuel) h2 h3 hR0 hRW hcap h5
      (le_trans (le_trans (solveFuel_mono h4) (solveFuel_mono' (by omega))) hfuel)
    exact ⟨r, by rw [h1]; exact r1, h6 r r2⟩

/-- the largest width -/
def maxWidth (ps : List (Pair K)) : Int := (ps.map fun p => p.u - p.l).foldr max 0

theorem maxWidth_nonneg (ps : List (Pair K)) : 0 ≤ maxWidth ps := by
  cases ps with
  | nil => exact le_rfl
  | cons p ps =>
    induction ps generalizing p with
    | nil => exact le_max_right _ _
    | cons q ps ih => exact (ih q).trans (le_max_right _ _)

theorem le_maxWidth {ps : List (Pair K)} {p : Pair K} (h : p ∈ ps) : p.u - p.l ≤ maxWidth ps := by
  induction ps with
  | nil => cases h
  | cons q ps ih =>
    rcases List.mem_cons.1 h with rfl | h
    · exact le_max_left _ _
    · exact (ih h).trans (le_max_right _ _)

theorem maxWidth_le {ps : List (Pair K)} {U : Int} (hU : 0 ≤ U) (h : ∀ p ∈ ps, p.u - p.l ≤ U) : maxWidth ps ≤ U := by
  induction ps with
  | nil => exact hU
  | cons q ps ih =>
    exact max_le (h q (List.mem_cons_self ..)) (ih fun p hp => h p (List.mem_cons_of_mem _ hp))

theorem run_near {P : Problem K} {Mus : List (MuLimit K)} {Omegas : List (OmegaLimit K)} {fuel : Nat}
    (rep : Represents P Mus Omegas) (wf : WellFormed P) (cv : ConvexCosts P) (wi : Within P W) (wd : Widths P W)
    (ri : Representable imax P) (hn : P.n + 1 < 2 ^ 64) (hW0 : 0 ≤ W)
    (z : ∀ i, 1 ≤ i → i ≤ P.n → P.lo i ≤ 0 ∧ 0 ≤ P.hi i) (zu : ∀ p ∈ P.pairs, 0 ≤ p.u)
    (hcap : 6 * ((P.n : Int) + 1) * (bitCeil ((P.n + 1) * W.toNat) : Nat) ≤ imax)
    (hfuel : nearFuel P.n (P.pairs.length + P.n) imax W ≤ fuel) :
    ∃ r, run imax fuel P.n Mus Omegas = .ok r ∧ Outcome (problemCosts P) r := by
  have hbits : Flow.bits imax < fuel := by unfold nearFuel at hfuel; omega
  have hR2 := capacity_range hW0 le_rfl hcap
  rw [run_front hn]
  rcases front_spec rep wf cv wi wd ri hn hW0 hR2 hbits with ⟨h1, h2⟩ | ⟨limits, ps, h1, h2, h3, h4, h5, h6, h7⟩
  · exact ⟨none, by rw [h1]; rfl, .inl ⟨rfl, h2⟩⟩
  · have h8 := h7 z zu
    have hm0 := maxWidth_nonneg ps
    have hmW := maxWidth_le hW0 fun p hp => (h3 p hp).wd
    obtain ⟨r, r1, r2⟩ := solveLimits_core (imax := imax) (fuel := fuel) (R := maxWidth ps) (W := W) h2
      (fun p hp => by
        have g := h3 p hp
        have g8 := h8 p hp
        have g9 := le_maxWidth hp
        exact { g with lo := by omega, hi := by omega }) hm0 hmW hcap h5
      (by
        have : Nat.log 2 (2 * maxWidth ps).toNat ≤ Nat.log 2 (2 * imax).toNat := Nat.log_mono_right (by omega)
        unfold Flow.bits at hbits ⊢
        omega)
      fun U hU1 hUW hU => (minFuel_near hU1 hUW hm0 (maxWidth_le (by omega) hU) h4 (by omega)).trans hfuel
    exact ⟨r, by rw [h1]; exact r1, h6 r r2⟩

theorem run_capacity {P : Problem K} {Mus : List (MuLimit K)} {Omegas : List (OmegaLimit K)}
    (rep : Represents P Mus Omegas) (wf : WellFormed P) (cv : ConvexCosts P) (hn : P.n + 1 < 2 ^ 64)
    (hcap : Capacity imax P) :
    ∃ r, Outcome (problemCosts P) r ∧ Returns (fun fuel => run imax fuel P.n Mus Omegas) r := by
  obtain ⟨ri, W, wi, wd, hc⟩ := hcap
  have key : ∀ fuel, solveFuel P.n (P.pairs.length + P.n) imax W ≤ fuel →
      ∃ r, run imax fuel P.n Mus Omegas = .ok r ∧ Outcome (problemCosts P) r := fun fuel hf =>
    run_spec rep wf cv wi wd ri hn (by omega) le_rfl (by push_cast at hc ⊢; simpa using hc) hf
  obtain ⟨r, -, r2⟩ := key _ le_rfl
  refine ⟨r, r2, returns_of (solveFuel P.n (P.pairs.length + P.n) imax W) (fun fuel hf => ?_)
    fun f f' hf => run_le hf P.n Mus Omegas⟩
  obtain ⟨r', e1, e2⟩ := key fuel hf
  rw [e1, outcome_unique r2 e2]

end ProblemSolver
end
end AHO
