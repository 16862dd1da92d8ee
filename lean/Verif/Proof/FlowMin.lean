import Verif.Proof.FlowMk
import Verif.Link
/-!
# `Flow(n, M, U, limits).min_cost()`
-/

namespace AHO
open Spec
set_option linter.unusedSectionVars false

variable {K : Type} [Field K] [LinearOrder K] [IsStrictOrderedRing K]

namespace Flow

instance {K : Type} [Zero K] : Inhabited (Pair K) := ⟨⟨0, 0, 0, 0, fun _ => 0⟩⟩

theorem sum_map_range {α : Type} (f : α → K) : ∀ (ps : List α) (d : α),
    (ps.map f).sum = ∑ k ∈ Finset.range ps.length, f (ps.getD k d) := by
  intro ps
  induction ps with
  | nil => intro d; simp
  | cons p ps ih =>
    intro d
    rw [List.map_cons, List.sum_cons, List.length_cons, Finset.sum_range_succ', ih d, add_comm]
    simp

section
variable {imax : Int} {n : Nat} {M : K} {U R : Int} {limits : List (OmegaLimit K)} {ps : List (Pair K)}

theorem limOK_of (hrep : List.Forall₂ OmegaLimit.Is limits ps) (good : ∀ p ∈ ps, ArcOK n M R p) :
    ∀ k, (hk : k < limits.length) → LimOK n M R limits[k] ((ps.getD k default).B) := by
  intro k hk
  have hlen := hrep.length_eq
  have hk' : k < ps.length := by omega
  have h := (List.forall₂_iff_get.1 hrep).2 k hk hk'
  simp only [List.get_eq_getElem] at h
  have e : ps.getD k default = ps[k] := by simp [List.getD_eq_getElem?_getD, List.getElem?_eq_getElem hk']
  have g := good _ (List.getElem_mem hk')
  rw [e]
  refine ⟨by rw [h.i]; exact g.i_le, by rw [h.j]; exact g.j_le, by rw [h.i, h.j]; exact g.ne,
    by rw [h.l, h.u]; exact g.le, by rw [h.l]; exact g.lo, by rw [h.u]; exact g.hi, ?_, by rw [h.l, h.u]; exact g.conv,
    by rw [h.l, h.u]; exact g.bd⟩
  rw [h.l, h.u]; exact h.fn

theorem total_eq (hrep : List.Forall₂ OmegaLimit.Is limits ps) (π : Nat → Int) :
    (netOf n M (fun k => limits.getD k default) (fun k => (ps.getD k default).B) limits.length).total limits.length π
      = penalised M ps π := by
  unfold Net.total penalised
  rw [sum_map_range _ ps default, ← hrep.length_eq]
  refine Finset.sum_congr rfl fun k hk => ?_
  rw [Finset.mem_range] at hk
  have hk' : k < ps.length := by rw [← hrep.length_eq]; exact hk
  have h := (List.forall₂_iff_get.1 hrep).2 k hk hk'
  simp only [List.get_eq_getElem] at h
  have e : ps.getD k default = ps[k] := by simp [List.getD_eq_getElem?_getD, List.getElem?_eq_getElem hk']
  have e' : limits.getD k default = limits[k] := by simp [List.getD_eq_getElem?_getD, List.getElem?_eq_getElem hk]
  unfold Net.pen
  simp only [netOf, par0, half0, if_true]
  rw [e, e', h.i, h.j, h.l, h.u]

/-- sufficient number of rounds for the binary searches -/
def bits (R : Int) : Nat := Nat.log 2 (2 * R).toNat + 1

theorem bits_spec {x R : Int} (h : x ≤ 2 * R) : x < 2 ^ bits R := by
  have := Nat.lt_pow_succ_log_self (b := 2) (by norm_num) (2 * R).toNat
  have h2 : (((2 * R).toNat : Nat) : Int) < ((2 ^ bits R : Nat) : Int) := by unfold bits; exact_mod_cast this
  push_cast at h2
  omega

/-- no potential is increased more often in the first phase -/
def firstB (n : Nat) (c h : Int) : Nat := (n * ((c + h - 1) / h + 1) + 1).toNat

theorem firstB_spec {n : Nat} {c h : Int} (hh : 0 < h) (hc : 0 ≤ c) : n * (c + h) + h ≤ h * firstB n c h := by
  unfold firstB
  have h1 : c ≤ h * ((c + h - 1) / h) := by
    have := Int.lt_mul_ediv_self_add (x := c + h - 1) hh
    omega
  have h0 : 0 ≤ (c + h - 1) / h := Int.ediv_nonneg (by omega) hh.le
  rw [Int.toNat_of_nonneg (by positivity)]
  have h2 : h * ((n : Int) * ((c + h - 1) / h + 1) + 1) = n * (h * ((c + h - 1) / h) + h) + h := by ring
  rw [h2]
  have := Int.mul_le_mul_of_nonneg_left (show c + h ≤ h * ((c + h - 1) / h) + h by omega) (Int.natCast_nonneg n)
  omega

/-- a number of rounds with which every loop of the network part finishes -/
def minFuel (n m : Nat) (U R c : Int) : Nat :=
  roundFuel n (2 * m) (max (firstB n c (2 ^ (epsExp n U - 1))) (3 * n + 1)) + epsExp n U + bits R + 4

variable {Q : Type} [Zero Q] [One Q] [Add Q] [Sub Q] [Neg Q] [Mul Q] [Div Q] [IntCast Q] [BEq Q] [LT Q] [LE Q]
  [DecidableLT Q] [DecidableLE Q]

theorem epsExp_pos {n : Nat} {U : Int} (hU : 1 ≤ U) : 0 < epsExp n U := by
  by_contra h0
  have := epsExp_le (n := n) (U := U) (by omega)
  rw [show epsExp n U = 0 by omega] at this
  have h1 : (1 : Int) * 1 ≤ ((n : Int) + 1) * U := by
    apply Int.mul_le_mul <;> omega
  have h2 : 2 * ((n : Int) + 1) * U = 2 * (((n : Int) + 1) * U) := by ring
  omega

theorem room_low {M : K} {m t : Nat} (hM : 0 ≤ M) (ht : 0 < t) :
    0 - (t : Nat) * (((2 * m : Nat) : K) * M) ≤ -(((2 * m : Nat) : K) * M) := by
  have h1 : (1 : K) ≤ t := by exact_mod_cast ht
  have h2 : 0 ≤ ((2 * m : Nat) : K) * M := mul_nonneg (Nat.cast_nonneg _) hM
  nlinarith

/-- the size up to which the arithmetic has to be exact -/
def needs (m t : Nat) (M b : K) (W : Int) : K :=
  2 * m * M * (t + 1) + 2 * M + 2 * m * (b + M * W) + W + 2

theorem _root_.AHO.LR.static {E : FEmb K Q} {net : Net K} {s s1 : Flow K} {e : Nat} {y : OmegaLimit Q} {b : K}
    (h : LR E b (s.edges.get e) y) (st : Static net s) (st1 : Static net s1) (he : e < net.E) :
    LR E b (s1.edges.get e) y := by
  refine ⟨by rw [h.l, st.el e he, st1.el e he], by rw [h.u, st.eu e he, st1.eu e he], by rw [h.i, st.ei e he, st1.ei e he],
    by rw [h.j, st.ej e he, st1.ej e he], fun w w1 w2 => ?_, fun w v w1 w2 hv => ?_⟩
  · rw [st1.el e he] at w1
    rw [st1.eu e he] at w2
    obtain ⟨v, p, q⟩ := h.fn w (by rw [st.el e he]; exact w1) (by rw [st.eu e he]; exact w2)
    rw [st.ef e he w w1 w2] at p
    cases p
    exact ⟨_, st1.ef e he w w1 w2, q⟩
  · rw [st1.el e he] at w1
    rw [st1.eu e he] at w2
    refine h.ex w v (by rw [st.el e he]; exact w1) (by rw [st.eu e he]; exact w2) ?_
    rw [← hv, st.ef e he w w1 w2, st1.ef e he w w1 w2]

theorem limits_mem {E : FEmb K Q} {b : K} {limits : List (OmegaLimit K)} {ps : List (Pair K)} {limR}
    (hrep : List.Forall₂ OmegaLimit.Is limits ps) (hLR : List.Forall₂ (LR E b) limits limR) :
    ∀ p ∈ ps, ∀ x, p.l ≤ x → x ≤ p.u → p.B x ∈ E.U ∧ |p.B x| ≤ b := by
  induction hrep generalizing limR with
  | nil => simp
  | cons h _ ih =>
    cases hLR with
    | cons h1 h2 =>
      intro p hp x x1 x2
      rcases List.mem_cons.1 hp with rfl | hp
      · obtain ⟨v, p, q, r, t⟩ := h1.fn x (by rw [h.l]; exact x1) (by rw [h.u]; exact x2)
        rw [h.fn x x1 x2] at p
        cases p
        exact ⟨r, t⟩
      · exact ih h2 p hp x x1 x2

/-- `Flow(n, M, U, limits).min_cost()` for `U ≥ 1`, together with the run over another type. -/
theorem minCost_core (E : FEmb K Q) (hI0 : E.I 0) (hrep : List.Forall₂ OmegaLimit.Is limits ps)
    (good : ∀ p ∈ ps, ArcOK n M R p)
    (hM : 0 ≤ M) (hU : 1 ≤ U) (hR : 2 * R ≤ imax) (hR0 : 0 ≤ R) (hN : 2 * ((n : Int) + 1) ≤ imax) {c : Int}
    (hc : 2 * ((n : Int) + 1) * R ≤ c) (heps : (2 : Int) ^ epsExp n U ≤ imax)
    (hfit : (n : Int) * (c + 2 ^ (epsExp n U - 1)) + 2 ^ (epsExp n U - 1) +
      (3 * n + 1) * (2 ^ (epsExp n U - 1) - 1) ≤ imax)
    {fuel : Nat} (hfuel : minFuel n limits.length U R c ≤ fuel) :
    ∃ s, Flow.mk' imax fuel n M U limits = .ok s ∧
      Static (netOf n M (fun k => limits.getD k default) (fun k => (ps.getD k default).B) limits.length) s ∧
      (∀ b limR, List.Forall₂ (LR E b) limits limR → ∃ ed, mk' imax fuel n (E.e M) U limR = .ok (E.F ed s) ∧
        ed.size = 2 * limits.length ∧ ∀ e, e < 2 * limits.length → LR E b (s.edges.get e) (ed.get e)) ∧
      ∀ ed, Room E ed (netOf n M (fun k => limits.getD k default) (fun k => (ps.getD k default).B) limits.length)
          (0 - (epsExp n U : Nat) * (((2 * limits.length : Nat) : K) * M)) →
        ∃ s1 C, Flow.phases imax fuel s = .ok s1 ∧ Flow.phases imax fuel (E.F ed s) = .ok (E.F ed s1) ∧
          PInv E C (netOf n M (fun k => limits.getD k default) (fun k => (ps.getD k default).B) limits.length) 1 s1 ∧
        ∃ v s', Flow.minCost imax fuel s = .ok (v, s') ∧ (∃ π, v = penalised M ps π) ∧ ∀ π, v ≤ penalised M ps π := by
  have hL := limOK_of hrep good
  have hft : epsExp n U < fuel ∧ bits R < fuel := by
    unfold minFuel at hfuel; constructor <;> omega
  obtain ⟨s, e1, e2, e3, e4, e5, eR⟩ := mk'_spec E hI0 (gs := fun k => (ps.getD k default).B) hM (by omega) hL (by omega) hN heps
    hft.1 hc
  refine ⟨s, e1, e5.st, eR, fun ed rm => ?_⟩
  set net := netOf n M (fun k => limits.getD k default) (fun k => (ps.getD k default).B) limits.length with hnet
  have hL' : ∀ k, k < limits.length → LimOK n M R (limits.getD k default) (ps.getD k default).B := by
    intro k hk
    have := hL k hk
    have e : limits.getD k default = limits[k] := by
      simp [List.getD_eq_getElem?_getD, List.getElem?_eq_getElem hk]
    rw [e]; exact this
  have ok : net.OK := netOf_ok hM hL'
  -- `epsilon` is at least two
  have hexp : 0 < epsExp n U := by
    by_contra h0
    have := epsExp_le (n := n) (U := U) (by omega)
    rw [show epsExp n U = 0 by omega] at this
    have h1 : (1 : Int) * 1 ≤ ((n : Int) + 1) * U := by
      apply Int.mul_le_mul <;> omega
    have h2 : 2 * ((n : Int) + 1) * U = 2 * (((n : Int) + 1) * U) := by ring
    omega
  set t := epsExp n U - 1 with ht
  have htp : (1 : Int) ≤ 2 ^ t := by have : (0 : Int) < 2 ^ t := by positivity
                                     omega
  have hc0 : 0 ≤ c := by
    have : 0 ≤ 2 * ((n : Int) + 1) * R := Int.mul_nonneg (by omega) hR0
    omega
  have htt : epsExp n U = t + 1 := by omega
  rw [htt] at rm
  obtain ⟨s', p1, p2, p3, p4, p5⟩ := e5.phases ok rm le_rfl (imax := imax) (fuel := fuel) (t := t) (B := firstB n c (2 ^ t))
    (by
      have : net.N = 2 * ((n : Int) + 1) := rfl
      rw [this]; exact hN)
    (by
      unfold minFuel at hfuel
      rw [← ht] at hfuel
      show roundFuel n (2 * limits.length) (max (firstB n c (2 ^ t)) (3 * n + 1)) + t + 2 ≤ fuel
      omega)
    (by rw [e2, ht, Nat.sub_add_cancel hexp]) hc0 (fun v _ => e3 v)
    (firstB_spec (by omega) hc0)
    (by exact hfit)
  obtain ⟨v, s'', m1, m2, m3⟩ := p2.minCost ok (m := limits.length) rfl p1 hft.2 (fun e he =>
    netOf_fits hL' (by omega) (fun k hk => by have := (hL' k hk).lo; have := (hL' k hk).hi; omega)
      (fun k hk => bits_spec (by have := (hL' k hk).lo; have := (hL' k hk).hi; omega)) he)
  refine ⟨s', _, p1, p5, p2, v, s'', m1, ?_, fun π => ?_⟩
  · obtain ⟨π, hπ⟩ := m2
    exact ⟨π, by rw [← total_eq hrep]; exact hπ⟩
  · rw [← total_eq hrep]; exact m3 π

/-- `Flow(n, M, U, limits).min_cost()` for `U ≥ 1`. -/
theorem minCost_spec (hrep : List.Forall₂ OmegaLimit.Is limits ps) (good : ∀ p ∈ ps, ArcOK n M R p)
    (hM : 0 ≤ M) (hU : 1 ≤ U) (hR : 2 * R ≤ imax) (hR0 : 0 ≤ R) (hN : 2 * ((n : Int) + 1) ≤ imax) {c : Int}
    (hc : 2 * ((n : Int) + 1) * R ≤ c) (heps : (2 : Int) ^ epsExp n U ≤ imax)
    (hfit : (n : Int) * (c + 2 ^ (epsExp n U - 1)) + 2 ^ (epsExp n U - 1) +
      (3 * n + 1) * (2 ^ (epsExp n U - 1) - 1) ≤ imax)
    {fuel : Nat} (hfuel : minFuel n limits.length U R c ≤ fuel) :
    ∃ s, Flow.mk' imax fuel n M U limits = .ok s ∧ ∃ v s', Flow.minCost imax fuel s = .ok (v, s') ∧
      (∃ π, v = penalised M ps π) ∧ ∀ π, v ≤ penalised M ps π := by
  obtain ⟨s, e1, -, -, e4⟩ := minCost_core (FEmb.id K) trivial hrep good hM hU hR hR0 hN hc heps hfit hfuel
  obtain ⟨ed, rm⟩ := room_id (net := netOf n M (fun k => limits.getD k default) (fun k => (ps.getD k default).B)
    limits.length) (C := 0 - (epsExp n U : Nat) * (((2 * limits.length : Nat) : K) * M)) hM (room_low hM (epsExp_pos hU))
  obtain ⟨-, -, -, -, -, h⟩ := e4 ed rm
  exact ⟨s, e1, h⟩

theorem netOf_rng {n m : Nat} {M : K} {R : Int} {lim : Nat → OmegaLimit K} {gs : Nat → Int → K}
    (h : ∀ k, k < m → LimOK n M R (lim k) (gs k)) {e} (he : e < (netOf n M lim gs m).E) :
    -R ≤ (netOf n M lim gs m).lo e ∧ (netOf n M lim gs m).up e ≤ R := by
  obtain ⟨k, ⟨rfl, hx⟩ | ⟨rfl, hx⟩⟩ := even_or e
  all_goals
    have hk : k < m := by simp only [netOf] at he; omega
    have h4 := (h k hk).lo
    have h5 := (h k hk).hi
    simp only [netOf, par0, par1, half0, half1, if_true, Nat.one_ne_zero, if_false]
  · exact ⟨h4, h5⟩
  · exact ⟨by omega, by omega⟩

/-- `Flow(n, M, U, limits).min_cost()` over another type: the embedding of the exact result. -/
theorem minCost_simE (E : FEmb K Q) (hrep : List.Forall₂ OmegaLimit.Is limits ps) (good : ∀ p ∈ ps, ArcOK n M R p)
    (hM : 0 ≤ M) (hU : 1 ≤ U) (hR : 2 * R ≤ imax) (hR0 : 0 ≤ R) (hN : 2 * ((n : Int) + 1) ≤ imax) {c : Int}
    (hc : 2 * ((n : Int) + 1) * R ≤ c) (heps : (2 : Int) ^ epsExp n U ≤ imax)
    (hfit : (n : Int) * (c + 2 ^ (epsExp n U - 1)) + 2 ^ (epsExp n U - 1) +
      (3 * n + 1) * (2 ^ (epsExp n U - 1) - 1) ≤ imax)
    {fuel : Nat} (hfuel : minFuel n limits.length U R c ≤ fuel) {b : K} {limR : List (OmegaLimit Q)}
    (hLR : List.Forall₂ (LR E b) limits limR) (hb : 0 ≤ b) (h1 : (1 : K) ∈ E.U) (hMU : M ∈ E.U)
    (hI : ∀ x ∈ E.U, |x| ≤ needs limits.length (epsExp n U) M b R → E.I x) :
    ∃ s v s' sR tR, Flow.mk' imax fuel n M U limits = .ok s ∧ Flow.minCost imax fuel s = .ok (v, s') ∧
      Flow.mk' imax fuel n (E.e M) U limR = .ok sR ∧ Flow.minCost imax fuel sR = .ok (E.e v, tR) ∧ E.I v := by
  have hRK : (0 : K) ≤ R := by exact_mod_cast hR0
  have n1 : 0 ≤ 2 * (limits.length : K) * M * (epsExp n U + 1) := by positivity
  have n2 : 0 ≤ 2 * (limits.length : K) * (b + M * R) := by positivity
  have hz : ∀ k : Int, (k : K) ∈ E.U := fun k => by
    rw [← mul_one (k : K), ← zsmul_eq_mul]; exact E.U.zsmul_mem h1 k
  have hI' : ∀ x ∈ E.U, ∀ B, |x| ≤ B → B ≤ needs limits.length (epsExp n U) M b R → E.I x := fun x hx B h h' =>
    hI x hx (h.trans h')
  have hI0 : E.I 0 := hI' 0 E.U.zero_mem 0 (by simp) (by unfold needs; linarith)
  obtain ⟨s, e1, e2, e3, e4⟩ := minCost_core E hI0 hrep good hM hU hR hR0 hN hc heps hfit hfuel
  obtain ⟨ed, f1, f2, f3⟩ := e3 b limR hLR
  have rm := room_of (C := 0 - (epsExp n U : Nat) * (((2 * limits.length : Nat) : K) * M)) e2 hM hMU
    (room_low hM (epsExp_pos hU))
    (fun x hx h => hI' x hx _ h (by
      simp only [netOf]
      unfold needs
      push_cast
      linarith)) f2 f3
  obtain ⟨s1, C, g1, g2, g3, v, s', g4, ⟨π, g5⟩, -⟩ := e4 ed rm
  have hL := limOK_of hrep good
  have hL' : ∀ k, k < limits.length → LimOK n M R (limits.getD k default) (ps.getD k default).B := by
    intro k hk
    have := hL k hk
    have e : limits.getD k default = limits[k] := by
      simp [List.getD_eq_getElem?_getD, List.getElem?_eq_getElem hk]
    rw [e]; exact this
  have ok := netOf_ok hM hL'
  have hv : v ∈ E.U := by
    rw [g5, ← total_eq (n := n) (M := M) hrep]
    exact Net.total_mem ok rfl hMU rm.gU π
  obtain ⟨t', t1, t2⟩ := g3.minCost_simE ok g1 g2 f2 (fun e he => (f3 e he).static e2 g3.st he) hM hR0 hb
    (fun e he => netOf_rng hL' he)
    (fun x hx h => hI' x hx _ h (by
      simp only [netOf]
      unfold needs
      push_cast
      linarith))
    (fun k hk => hI' _ (hz k) R (by exact_mod_cast hk) (by unfold needs; linarith))
    (hI' _ (hz 2) 2 (by simp) (by unfold needs; linarith)) hv g4
  exact ⟨s, v, s', _, t', e1, g4, f1, t1, t2⟩

/-- `Flow(n, M, 0, limits).min_cost()` when all ranges are points: no phase is run. -/
theorem minCost_zero (hrep : List.Forall₂ OmegaLimit.Is limits ps) (good : ∀ p ∈ ps, ArcOK n M R p)
    (hpt : ∀ p ∈ ps, p.l = p.u)
    (hM : 0 ≤ M) (hR : 2 * R ≤ imax) (hR0 : 0 ≤ R) (hN : 2 * ((n : Int) + 1) ≤ imax)
    {fuel : Nat} (hfuel : bits R + 1 ≤ fuel) :
    ∃ s, Flow.mk' imax fuel n M 0 limits = .ok s ∧ ∃ s', Flow.minCost imax fuel s =
      .ok ((ps.map fun p => p.B p.l).sum, s') := by
  have hL := limOK_of hrep good
  have hx0 : epsExp n 0 = 0 := by simp [epsExp]
  obtain ⟨s, e1, e2, e3, e4, e5, -⟩ := mk'_spec (FEmb.id K) trivial (gs := fun k => (ps.getD k default).B) (U := 0) (fuel := fuel) hM le_rfl hL
    (by omega) hN (by rw [hx0]; simp; omega) (by rw [hx0]; omega) (le_refl (2 * ((n : Int) + 1) * R))
  refine ⟨s, e1, ?_⟩
  set net := netOf n M (fun k => limits.getD k default) (fun k => (ps.getD k default).B) limits.length with hnet
  have hL' : ∀ k, k < limits.length → LimOK n M R (limits.getD k default) (ps.getD k default).B := by
    intro k hk
    have := hL k hk
    have e : limits.getD k default = limits[k] := by
      simp [List.getD_eq_getElem?_getD, List.getElem?_eq_getElem hk]
    rw [e]; exact this
  have ok : net.OK := netOf_ok hM hL'
  have hph : Flow.phases imax fuel s = .ok s := by
    obtain ⟨fuel, rfl⟩ : ∃ m, fuel = m + 1 := ⟨fuel - 1, by omega⟩
    unfold Flow.phases whileLoop
    rw [e2, hx0, ok_bind]
    simp
  obtain ⟨mm, s', l1, l2⟩ := minLoop ok (imax := imax) (fuel := fuel) (k := bits R) e5.st (by omega) (fun e he =>
    netOf_fits hL' (by omega) (fun k hk => by have := (hL' k hk).lo; have := (hL' k hk).hi; omega)
      (fun k hk => bits_spec (by have := (hL' k hk).lo; have := (hL' k hk).hi; omega)) he)
  refine ⟨s', ?_⟩
  unfold Flow.minCost
  rw [hph, ok_bind, e5.st.esz, l1, ok_bind]
  dsimp only
  congr 2
  have h2 : ((2 : Int) : K) ≠ 0 := by norm_num
  rw [div_eq_iff h2, sum_map_range _ ps default, ← hrep.length_eq]
  have : net.E = 2 * limits.length := rfl
  rw [this, sum_double, Finset.sum_mul]
  refine Finset.sum_congr rfl fun k hk => ?_
  rw [Finset.mem_range] at hk
  have hk' : k < ps.length := by rw [← hrep.length_eq]; exact hk
  have h := (List.forall₂_iff_get.1 hrep).2 k hk hk'
  simp only [List.get_eq_getElem] at h
  have e : ps.getD k default = ps[k] := by simp [List.getD_eq_getElem?_getD, List.getElem?_eq_getElem hk']
  have e' : limits.getD k default = limits[k] := by simp [List.getD_eq_getElem?_getD, List.getElem?_eq_getElem hk]
  have hp := hpt _ (List.getElem_mem hk')
  obtain ⟨x, x1, x2, x3⟩ := (l2 (2 * k) (by omega)).1
  obtain ⟨y, y1, y2, y3⟩ := (l2 (2 * k + 1) (by omega)).1
  simp only [hnet, netOf, par0, par1, half0, half1, if_true, Nat.one_ne_zero, if_false, e', h.l, h.u, e4] at x1 x2 x3 y1 y2 y3
  rw [x3, y3, e]
  have hx : x = ps[k].l := by omega
  have hy : -y = ps[k].l := by omega
  rw [hx, hy]
  push_cast; ring

/-- The same over another type. -/
theorem minCost_zero_simE (E : FEmb K Q) (hrep : List.Forall₂ OmegaLimit.Is limits ps) (good : ∀ p ∈ ps, ArcOK n M R p)
    (hpt : ∀ p ∈ ps, p.l = p.u)
    (hM : 0 ≤ M) (hR : 2 * R ≤ imax) (hR0 : 0 ≤ R) (hN : 2 * ((n : Int) + 1) ≤ imax)
    {fuel : Nat} (hfuel : bits R + 1 ≤ fuel) {b : K} {limR : List (OmegaLimit Q)}
    (hLR : List.Forall₂ (LR E b) limits limR) (hb : 0 ≤ b) (h1 : (1 : K) ∈ E.U)
    (hI : ∀ x ∈ E.U, |x| ≤ needs limits.length (epsExp n 0) M b R → E.I x) :
    ∃ s v s' sR tR, Flow.mk' imax fuel n M 0 limits = .ok s ∧ Flow.minCost imax fuel s = .ok (v, s') ∧
      Flow.mk' imax fuel n (E.e M) 0 limR = .ok sR ∧ Flow.minCost imax fuel sR = .ok (E.e v, tR) ∧ E.I v := by
  have hRK : (0 : K) ≤ R := by exact_mod_cast hR0
  have n1 : 0 ≤ 2 * (limits.length : K) * M * (epsExp n 0 + 1) := by positivity
  have n2 : 0 ≤ 2 * (limits.length : K) * (b + M * R) := by positivity
  have hz : ∀ k : Int, (k : K) ∈ E.U := fun k => by
    rw [← mul_one (k : K), ← zsmul_eq_mul]; exact E.U.zsmul_mem h1 k
  have hI' : ∀ x ∈ E.U, ∀ B, |x| ≤ B → B ≤ needs limits.length (epsExp n 0) M b R → E.I x := fun x hx B h h' =>
    hI x hx (h.trans h')
  have hI0 : E.I 0 := hI' 0 E.U.zero_mem 0 (by simp) (by unfold needs; linarith)
  have hL := limOK_of hrep good
  have hL' : ∀ k, k < limits.length → LimOK n M R (limits.getD k default) (ps.getD k default).B := by
    intro k hk
    have := hL k hk
    have e : limits.getD k default = limits[k] := by
      simp [List.getD_eq_getElem?_getD, List.getElem?_eq_getElem hk]
    rw [e]; exact this
  have ok := netOf_ok hM hL'
  obtain ⟨s, a1, s', a2⟩ := minCost_zero hrep good hpt hM hR hR0 hN hfuel
  have hx0 : epsExp n 0 = 0 := by simp [epsExp]
  obtain ⟨s2, e1, e2, -, -, e5, eR⟩ := mk'_spec E hI0 (gs := fun k => (ps.getD k default).B) (U := 0) (fuel := fuel) hM
    le_rfl hL (by omega) hN (by rw [hx0]; simp; omega) (by rw [hx0]; omega) (le_refl (2 * ((n : Int) + 1) * R))
  rw [a1] at e1
  cases e1
  obtain ⟨ed, f1, f2, f3⟩ := eR b limR hLR
  obtain ⟨fuel, rfl⟩ : ∃ m, fuel = m + 1 := ⟨fuel - 1, by omega⟩
  have hph : Flow.phases imax (fuel + 1) s = .ok s := by
    unfold Flow.phases whileLoop
    rw [e2, hx0, ok_bind]
    simp
  have hphR : Flow.phases imax (fuel + 1) (E.F ed s) = .ok (E.F ed s) := by
    unfold Flow.phases whileLoop
    rw [FEmb.F_epsilon, e2, hx0, ok_bind]
    simp
  have hv : (ps.map fun p => p.B p.l).sum ∈ E.U := by
    refine list_sum_mem fun x hx => ?_
    obtain ⟨p, hp, rfl⟩ := List.mem_map.1 hx
    exact (limits_mem hrep hLR p hp _ le_rfl (hpt p hp).le).1
  obtain ⟨t', t1, t2⟩ := e5.minCost_simE ok hph hphR f2 f3 hM hR0 hb (fun e he => netOf_rng hL' he)
    (fun x hx h => hI' x hx _ h (by
      simp only [netOf]
      unfold needs
      push_cast
      linarith))
    (fun k hk => hI' _ (hz k) R (by exact_mod_cast hk) (by unfold needs; linarith))
    (hI' _ (hz 2) 2 (by simp) (by unfold needs; linarith)) hv a2
  exact ⟨s, _, s', _, t', a1, a2, f1, t1, t2⟩

end
end Flow
end AHO
