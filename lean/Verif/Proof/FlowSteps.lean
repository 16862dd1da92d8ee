import Verif.Proof.Calc
import Verif.Proof.Mono
import Mathlib.Algebra.BigOperators.Fin
/-!
# The single phases of `Flow::min_cost` and the single rounds of `Flow::refine`
-/

namespace AHO
open Spec
set_option linter.unusedSectionVars false

variable {K : Type} [Field K] [LinearOrder K] [IsStrictOrderedRing K]

namespace Flow
variable {imax : Int} {n : Nat} {M : K} {U R : Int} {limits : List (OmegaLimit K)} {ps : List (Pair K)}

/-- the network of the arguments -/
def inputNet (n : Nat) (M : K) (limits : List (OmegaLimit K)) (ps : List (Pair K)) : Net K :=
  netOf n M (fun k => limits.getD k default) (fun k => (ps.getD k default).B) limits.length

theorem epsilon₀_eq (n : Nat) (U : Int) : (epsilon₀ n U : Int) = 2 ^ epsExp n U := by
  unfold epsilon₀ bitCeil epsExp; push_cast; rfl

theorem epsilon₀_half (hU : 1 ≤ U) : ((epsilon₀ n U / 2 : Nat) : Int) = 2 ^ (epsExp n U - 1) := by
  have h := epsExp_pos (n := n) hU
  have h2 := epsilon₀_eq n U
  have h3 : (2 : Int) ^ epsExp n U = 2 ^ (epsExp n U - 1) * 2 := by rw [← pow_succ, Nat.sub_add_cancel h]
  omega

theorem cdiv_mul {N : Int} (hN : 0 < N) (x : Int) : cdiv (x * N) N = x := by
  unfold cdiv
  rw [← neg_mul, Int.mul_ediv_cancel _ (by omega), neg_neg]

theorem lft_cdiv {N : Int} (hN : 0 < N) (M : K) (lo up : Int) (g : Int → K) (s : Int) :
    lft N M lo up g (cdiv s N * N) = lft N M lo up g s := by
  unfold lft; rw [cdiv_mul hN]

theorem penal_slope {N : Int} {M : K} {lo up : Int} {g : Int → K} (h : EdgeOK N M lo up g) (x : Int) :
    penal M lo up g (x + 1) - penal M lo up g x = lft N M lo up g ((x + 1) * N) := by
  rw [lft_penal h.le, cdiv_mul h.npos, show x + 1 - 1 = x by ring]

theorem slope_le_lft {N : Int} {M : K} {lo up : Int} {g : Int → K} (h : EdgeOK N M lo up g) {x s : Int} (hx : x * N < s) :
    penal M lo up g (x + 1) - penal M lo up g x ≤ lft N M lo up g s := by
  rw [penal_slope h, ← lft_cdiv h.npos M lo up g s]
  refine lft_mono h (Int.mul_le_mul_of_nonneg_right ?_ h.npos.le)
  have h1 := (cdiv_bounds s N h.npos).2
  by_contra hc
  have h2 : N * cdiv s N ≤ N * x := Int.mul_le_mul_of_nonneg_left (by omega) h.npos.le
  have h3 : N * x = x * N := mul_comm _ _
  omega

section
variable (I : NetInput imax n M U R limits ps)
include I

theorem inputNet_lim : ∀ k, k < limits.length → LimOK n M R (limits.getD k default) (ps.getD k default).B := by
  intro k hk
  have := limOK_of I.rep I.arcs k hk
  have e : limits.getD k default = limits[k] := by
    simp [List.getD_eq_getElem?_getD, List.getElem?_eq_getElem hk]
  rw [e]; exact this

theorem inputNet_ok : (inputNet n M limits ps).OK := netOf_ok I.M_nonneg (inputNet_lim I)

theorem get_arc {k : Nat} (hk : k < ps.length) :
    (inputNet n M limits ps).src (2 * k) = ps[k].i ∧ (inputNet n M limits ps).dst (2 * k) = ps[k].j ∧
    (inputNet n M limits ps).lo (2 * k) = ps[k].l ∧ (inputNet n M limits ps).up (2 * k) = ps[k].u ∧
    (inputNet n M limits ps).g (2 * k) = ps[k].B := by
  have hk' : k < limits.length := by rw [I.rep.length_eq]; exact hk
  have h := (List.forall₂_iff_get.1 I.rep).2 k hk' hk
  simp only [List.get_eq_getElem] at h
  have e : ps.getD k default = ps[k] := by simp [List.getD_eq_getElem?_getD, List.getElem?_eq_getElem hk]
  have e' : limits.getD k default = limits[k] := by simp [List.getD_eq_getElem?_getD, List.getElem?_eq_getElem hk']
  simp only [inputNet, netOf, par0, half0, if_true]
  rw [e, e', h.i, h.j, h.l, h.u]
  exact ⟨rfl, rfl, rfl, rfl, rfl⟩

/-- the constructor and the first `k` phases, with the change `g` of the state before each of them -/
theorem NetInput.phasesG {fuel : Nat} (hfuel : minFuel n limits.length U R (2 * ((n : Int) + 1) * R) ≤ fuel)
    {g : Flow K → Flow K} (hg : ∀ C c s, C ≤ 0 → PInv (FEmb.id K) C (inputNet n M limits ps) c s → PInv (FEmb.id K) C (inputNet n M limits ps) c (g s))
    (hge : ∀ s, (g s).epsilon = s.epsilon) (hgs : ∀ s, (g s).scaling = s.scaling) (hgf : ∀ s, (g s).flows = s.flows) :
    ∃ s B, mk' imax fuel n M U limits = .ok s ∧ s.epsilon = epsilon₀ n U ∧
      B = firstB n (2 * ((n : Int) + 1) * R) (2 ^ (epsExp n U - 1)) ∧
      (∀ v, s.scaling.get v = 0) ∧
      (∀ k, k ≤ epsExp n U → ∃ s', iterN (fun s => Flow.phase imax fuel (g s)) k s = .ok s' ∧
        (∃ C, C ≤ 0 ∧ PInv (FEmb.id K) C (inputNet n M limits ps) (slack (2 * ((n : Int) + 1) * R) (epsExp n U - 1) k) s') ∧
        s'.epsilon = 2 ^ (epsExp n U - k) ∧ (k < epsExp n U →
          Start (inputNet n M limits ps) imax (2 ^ (epsExp n U - 1 - k)) (slack (2 * ((n : Int) + 1) * R) (epsExp n U - 1) k)
            s'.flows.get s'.scaling.get (relabels n B k) ∧
          phaseFuel (inputNet n M limits ps) (relabels n B k) ≤ fuel)) := by
  have hft : epsExp n U < fuel := by
    unfold minFuel at hfuel; omega
  have hexp := epsExp_pos (n := n) I.U_pos
  have hR0 := I.R_nonneg
  have hcR := I.cap.range
  obtain ⟨s, e1, e2, e3, e4, e5, -⟩ := mk'_spec (FEmb.id K) trivial (gs := fun k => (ps.getD k default).B) (W := R) I.M_nonneg
    (le_trans zero_le_one I.U_pos) (limOK_of I.rep I.arcs) (by omega) I.cap.nodes
    (by rw [← epsilon₀_eq]; exact I.cap.eps) hft (le_refl (2 * ((n : Int) + 1) * R))
  refine ⟨s, _, e1, by rw [e2, epsilon₀_eq], rfl, e3, ?_⟩
  set t := epsExp n U - 1 with ht
  have htt : epsExp n U = t + 1 := by omega
  have htp : (1 : Int) ≤ 2 ^ t := by have : (0 : Int) < 2 ^ t := by positivity
                                     omega
  have hc0 : 0 ≤ 2 * ((n : Int) + 1) * R := Int.mul_nonneg (by omega) hR0
  have key := e5.nthG (g := g) (hg := hg) (hge := hge) (hgs := hgs) (hgf := hgf) (inputNet_ok I) (imax := imax) (fuel := fuel) (t := t) (B := firstB n (2 * ((n : Int) + 1) * R) (2 ^ t))
    (by
      have : (inputNet n M limits ps).N = 2 * ((n : Int) + 1) := rfl
      rw [this]; exact I.cap.nodes)
    I.M_nonneg
    (by
      unfold minFuel at hfuel
      rw [← ht] at hfuel
      show roundFuel n (2 * limits.length) (max (firstB n (2 * ((n : Int) + 1) * R) (2 ^ t)) (3 * n + 1)) + t + 2 ≤ fuel
      omega)
    (by rw [e2, htt]) hc0 (fun v _ => e3 v)
    (firstB_spec (by omega) hc0)
    (by
      have := I.cap.pot
      rw [epsilon₀_half I.U_pos] at this
      exact this)
  intro k hk
  obtain ⟨s', a1, a2, a3, a4⟩ := key k (by omega)
  exact ⟨s', a1, a2, by rw [a3, htt], fun h => a4 (by omega)⟩

/-- the constructor and the first `k` phases -/
theorem NetInput.phases {fuel : Nat} (hfuel : minFuel n limits.length U R (2 * ((n : Int) + 1) * R) ≤ fuel) :
    ∃ s B, mk' imax fuel n M U limits = .ok s ∧ s.epsilon = epsilon₀ n U ∧
      B = firstB n (2 * ((n : Int) + 1) * R) (2 ^ (epsExp n U - 1)) ∧
      (∀ v, s.scaling.get v = 0) ∧
      (∀ k, k ≤ epsExp n U → ∃ s', iterN (Flow.phase imax fuel) k s = .ok s' ∧
        (∃ C, C ≤ 0 ∧ PInv (FEmb.id K) C (inputNet n M limits ps) (slack (2 * ((n : Int) + 1) * R) (epsExp n U - 1) k) s') ∧
        s'.epsilon = 2 ^ (epsExp n U - k) ∧ (k < epsExp n U →
          Start (inputNet n M limits ps) imax (2 ^ (epsExp n U - 1 - k)) (slack (2 * ((n : Int) + 1) * R) (epsExp n U - 1) k)
            s'.flows.get s'.scaling.get (relabels n B k) ∧
          phaseFuel (inputNet n M limits ps) (relabels n B k) ≤ fuel)) :=
  NetInput.phasesG I hfuel (g := fun s => s) (fun _ _ _ _ P => P) (fun _ => rfl) (fun _ => rfl) fun _ => rfl

theorem outflow_eq {f : Nat → K} (anti : ∀ e, e < (inputNet n M limits ps).E → f (e ^^^ 1) = -f e) (v : Nat) :
    outflow ps (fun k => f (2 * k)) v = excess (inputNet n M limits ps) f v := by
  unfold outflow excess
  rw [Finset.sum_filter]
  have hE : (inputNet n M limits ps).E = 2 * ps.length := by show 2 * limits.length = _; rw [I.rep.length_eq]
  rw [hE, sum_double, Finset.sum_range]
  refine Finset.sum_congr rfl fun k _ => ?_
  have hk := k.2
  obtain ⟨g1, g2, -⟩ := get_arc I hk
  have ok := inputNet_ok I
  have h2 : 2 * k.1 < (inputNet n M limits ps).E := by omega
  have hx : 2 * k.1 + 1 = (2 * k.1) ^^^ 1 := (two_xor k.1).symm
  rw [g1, hx, ok.src_x _ h2, g2, anti _ h2]
  simp only [Fin.getElem_fin]
  by_cases h3 : ps[k.1].j = v
  · rw [if_pos h3, if_pos h3, sub_eq_add_neg]
  · rw [if_neg h3, if_neg h3, sub_zero, add_zero]

theorem epsOptimal_of {f : Nat → K} {pot : Nat → Int} {c : Int}
    (anti : ∀ e, e < (inputNet n M limits ps).E → f (e ^^^ 1) = -f e)
    (opt : ∀ e, e < (inputNet n M limits ps).E → (inputNet n M limits ps).L e
      (pot ((inputNet n M limits ps).src e) - pot ((inputNet n M limits ps).dst e) - c) ≤ f e) {k : Nat} (hk : k < ps.length) :
    EpsOptimal M (2 * ((n : Int) + 1)) c ps[k] (pot ps[k].i - pot ps[k].j) (f (2 * k)) := by
  have ok := inputNet_ok I
  have hE : (inputNet n M limits ps).E = 2 * ps.length := by show 2 * limits.length = _; rw [I.rep.length_eq]
  have h2 : 2 * k < (inputNet n M limits ps).E := by omega
  obtain ⟨g1, g2, g3, g4, g5⟩ := get_arc I hk
  have hed := ok.edge _ h2
  rw [g3, g4, g5] at hed
  constructor
  · intro x hx
    have := opt _ h2
    rw [g1, g2] at this
    unfold Net.L at this
    rw [g3, g4, g5] at this
    exact (slope_le_lft hed hx).trans this
  · intro x hx
    have := opt _ (ok.x_lt _ h2)
    rw [ok.src_x _ h2, ok.dst_x _ h2, g1, g2, anti _ h2, ok.L_x h2, g3, g4, g5] at this
    have h3 := (slope_le_lft hed.rev (x := -x - 1)
      (s := pot ps[k].j - pot ps[k].i - c) (by
        have : (-x - 1) * (inputNet n M limits ps).N = -((x + 1) * (2 * ((n : Int) + 1))) := by
          show (-x - 1) * (2 * ((n : Int) + 1)) = _
          ring
        rw [this]; omega)).trans this
    rw [penal_rev hed.le, penal_rev hed.le, show -(-x - 1 + 1) = x by ring, show -(-x - 1) = x + 1 by ring] at h3
    have h4 : penal M ps[k].l ps[k].u ps[k].B x - penal M ps[k].l ps[k].u ps[k].B (x + 1) ≤ -f (2 * k) := h3
    linarith

end

/-! ### Rounds -/

theorem iterN_succ' {α : Type} (f : α → Res α) (k : Nat) (a : α) : iterN f (k + 1) a = (do let b ← f a; iterN f k b) := by
  induction k with
  | zero =>
    show (iterN f 0 a >>= f) = _
    unfold iterN
    rw [ok_bind]
    cases f a <;> rfl
  | succ k ih =>
    show (iterN f (k + 1) a >>= f) = _
    rw [ih]
    cases f a <;> rfl

theorem whileLoop_iterN {α : Type} {cond : α → Res Bool} {body : α → Res α} {J : Nat} : ∀ {fuel : Nat} {a : α},
    (∀ j, j ≤ J → ∃ b, iterN body j a = .ok b ∧ cond b = .ok (decide (j < J))) → J < fuel →
    whileLoop cond body fuel a = iterN body J a := by
  induction J with
  | zero =>
    intro fuel a h hf
    obtain ⟨fuel, rfl⟩ : ∃ m, fuel = m + 1 := ⟨fuel - 1, by omega⟩
    obtain ⟨b, h1, h2⟩ := h 0 le_rfl
    cases h1
    unfold whileLoop
    rw [h2, ok_bind]
    rfl
  | succ J ih =>
    intro fuel a h hf
    obtain ⟨fuel, rfl⟩ : ∃ m, fuel = m + 1 := ⟨fuel - 1, by omega⟩
    obtain ⟨b, h1, h2⟩ := h 0 (by omega)
    cases h1
    obtain ⟨b, h3, -⟩ := h 1 (by omega)
    rw [iterN_succ'] at h3
    obtain ⟨c, hc⟩ : ∃ c, body a = .ok c := by
      cases hb : body a with
      | error e => rw [hb] at h3; cases h3
      | ok c => exact ⟨c, rfl⟩
    unfold whileLoop
    rw [h2, ok_bind, decide_eq_true (by omega)]
    simp only [if_true]
    rw [hc, ok_bind, iterN_succ', hc, ok_bind]
    refine ih (fun j hj => ?_) (by omega)
    obtain ⟨b, h4, h5⟩ := h (j + 1) (by omega)
    rw [iterN_succ', hc, ok_bind] at h4
    exact ⟨b, h4, by rw [h5]; simp⟩

variable {net : Net K} {h c : Int}

theorem RInv.rounds (ok : net.OK) {C : K} {ed : Vec (OmegaLimit K)} (rm : Room (FEmb.id K) ed net C) {f0 p0 B fuel} (hfuel : net.n + 2 ≤ fuel)
    (hfuel2 : net.E + 1 ≤ fuel) (St : Start net imax h c f0 p0 B) : ∀ (m : Nat) (s : Flow K) (f w : Nat → K) (τ k : Nat → Nat),
    RInv (FEmb.id K) C net h c p0 B s f w τ k → measR net B s f k = m →
    ∃ J, J ≤ m ∧ ∀ j, j ≤ J → ∃ s' f' w' τ' k', iterN (refineStep imax fuel) j s = .ok s' ∧ RInv (FEmb.id K) C net h c p0 B s' f' w' τ' k' ∧
      (j < J ↔ s'.uq.queue ≠ []) ∧ ∀ v, v ≤ net.n → s'.scaling.get v ≤ s.scaling.get v + h * j := by
  intro m
  induction m using Nat.strong_induction_on with
  | _ m ih =>
    intro s f w τ k R hm
    cases hq : s.uq.queue with
    | nil =>
      refine ⟨0, by omega, fun j hj => ?_⟩
      obtain rfl : j = 0 := by omega
      exact ⟨s, f, w, τ, k, rfl, R, by simp [hq], by simp⟩
    | cons p xs =>
      obtain ⟨s1, f1, w1, τ1, k1, e1, e2, e3, e4, -⟩ := R.step ok rm hfuel hfuel2 St hq
      obtain ⟨J, hJ, hj⟩ := ih _ (by omega) s1 f1 w1 τ1 k1 e2 rfl
      refine ⟨J + 1, by omega, fun j hj' => ?_⟩
      cases j with
      | zero => exact ⟨s, f, w, τ, k, rfl, R, by simp [hq], by simp⟩
      | succ j =>
        obtain ⟨s2, f2, w2, τ2, k2, g1, g2, g3, g4⟩ := hj j (by omega)
        refine ⟨s2, f2, w2, τ2, k2, by rw [iterN_succ', e1, ok_bind, g1], g2, by rw [← g3]; omega, fun v hv => ?_⟩
        have h1 := g4 v hv
        have hpos := St.hpos
        have h2 : s1.scaling.get v ≤ s.scaling.get v + h := by
          rcases e4 with e | e
          · rw [e]; omega
          · rw [e, Vec.set_get]
            split
            · rename_i hv'; rw [hv']
            · omega
        push_cast
        rw [Int.mul_add]
        omega

end Flow
end AHO
