import Verif.Props.Flow
/-!
# The numbers which `calc` computes
-/

namespace AHO.Props
open Spec Flow
set_option linter.unusedSectionVars false

section
variable {K : Type} [Field K] [LinearOrder K] [IsStrictOrderedRing K]
variable {imax : Int} {n : Nat} {M : K} {U R : Int} {limits : List (OmegaLimit K)} {arcs : List (Pair K)}

theorem calc_returns {W : Int} (rep : List.Forall₂ OmegaLimit.Is limits arcs) (good : ∀ p ∈ arcs, ArcIn n R W p) (hR : 2 * R ≤ imax) :
    ∃ U, Returns (fun fuel => ProblemSolver.calc' imax fuel limits) (vcm arcs, bigM arcs, U) := by
  obtain ⟨U, e1, e2⟩ := ProblemSolver.calcLoop_spec (imax := imax) (fuel := Flow.bits R + 1) hR (by omega) limits arcs 0 1 0 rep good
  rw [zero_add] at e1
  exact ⟨U, returns_of_eval _ e1 fun _ _ h => ProblemSolver.calcLoop_le h _ _⟩

/-- the penalty bounds the slopes already without the 1 with which `calc` begins -/
theorem arcOK_sum {W : Int} (g : ∀ p ∈ arcs, ArcIn n R W p) (hM : bigM arcs - 1 ≤ M) : ∀ p ∈ arcs, ArcOK n M R p := by
  intro p hp
  have h := g p hp
  refine ⟨h.i_le, h.j_le, h.ne, h.le, h.lo, h.hi, h.conv, fun x h1 h2 => ?_⟩
  have s := le_sum_map (f := fun p : Pair K => mxP p - mnP p) (fun q hq => sub_nonneg.2 (mn_le_mx (g q hq))) p hp
  have m := (exists_min h).2
  have a1 : p.B (x + 1) ≤ mxP p := convex_le_max h.conv (by omega) h2
  have a2 : p.B x ≤ mxP p := convex_le_max h.conv h1 (by omega)
  have b1 := m x h1 (by omega)
  have b2 := m (x + 1) (by omega) h2
  unfold bigM at hM
  rw [abs_le]
  constructor <;> linarith

/-- C90. `calc` computes `valid_cost_max`, `M` and `U`. With any `M' > M - 1` in place of `M`, any positive number in place of `U` (the `int` must have the capacity for it), and any
threshold `t` with `valid_cost_max ≤ t < valid_cost_max + 1 + (M' - M)`, the program finds the same: the result of `min_cost` exceeds `t` if and only if the ranges can not
all be respected, and otherwise it is the least cost. -/
theorem C90_constants {W : Int} (rep : List.Forall₂ OmegaLimit.Is limits arcs) (good : ∀ p ∈ arcs, ArcIn n R W p) (hR0 : 0 ≤ R) (hR : 2 * R ≤ imax) :
    ∃ validCostMax M U, Returns (fun fuel => ProblemSolver.calc' imax fuel limits) (validCostMax, M, U) ∧
      ∀ imax' M' U' t, 1 ≤ U' → NetCapacity imax' n U' R → validCostMax ≤ t → t < validCostMax + 1 + (M' - M) →
        ∃ v, Returns (flowMinCost imax' n M' U' limits) v ∧ (t < v ↔ ¬ ∃ π, ArcsFeasible arcs π) ∧
          ((∃ π, ArcsFeasible arcs π) → IsLeast {w | ∃ π, ArcsFeasible arcs π ∧ w = arcsCost arcs π} v) := by
  obtain ⟨U, h⟩ := calc_returns rep good hR
  refine ⟨_, _, U, h, fun imax' M' U' t hU cap h1 h2 => ?_⟩
  have hM : bigM arcs - 1 ≤ M' := by linarith
  have hM0 : 0 ≤ M' := by
    have := sum_map_nonneg (f := fun p : Pair K => mxP p - mnP p) (fun q hq => sub_nonneg.2 (mn_le_mx (good q hq)))
    unfold bigM at hM
    linarith
  have I : NetInput imax' n M' U' R limits arcs := ⟨rep, arcOK_sum good hM, hM0, hR0, hU, cap⟩
  obtain ⟨v, hv, ⟨π, hπ⟩, hl⟩ := C21_min_cost I
  have o := outcome_of_penalty good (v := v) (M := M') (t := t) hM0 h1
    (by have := vcm_add_one arcs; linarith) ⟨π, hπ.symm⟩ fun π => hl ⟨π, rfl⟩
  refine ⟨v, hv, ?_⟩
  rcases o with ⟨o1, o2⟩ | ⟨v', o1, o2⟩
  · have hlt : t < v := by
      by_contra hc
      rw [if_neg hc] at o1
      cases o1
    have hn : ¬ ∃ π, ArcsFeasible arcs π := by
      rintro ⟨π, h⟩
      have : arcsCost arcs π ∈ costs arcs := ⟨π, h, rfl⟩
      rw [o2] at this
      exact this
    exact ⟨⟨fun _ => hn, fun _ => hlt⟩, fun h => absurd h hn⟩
  · have hlt : ¬ t < v := by
      intro hc
      rw [if_pos hc] at o1
      cases o1
    rw [if_neg hlt] at o1
    cases o1
    obtain ⟨⟨π', p1, p2⟩, o3⟩ := o2
    exact ⟨⟨fun h => absurd h hlt, fun h => absurd ⟨π', p1⟩ h⟩, fun _ => ⟨⟨π', p1, p2.symm⟩, fun w ⟨π, q1, q2⟩ => o3 ⟨π, q1, q2.symm⟩⟩⟩

/-- The hypotheses are met by the example network; there twice the penalty and the threshold in the middle may be used. -/
example : (∀ p ∈ exArcs, ArcIn 2 2 4 p) ∧ (0 : Int) ≤ 2 ∧ (2 : Int) * 2 ≤ 2 ^ 31 - 1 ∧ NetCapacity (2 ^ 31 - 1) 2 2 2 := by
  refine ⟨fun p hp => ?_, by decide, by decide, exArcs_input.cap⟩
  have h := exArcs_ok p hp
  refine ⟨h.i_le, h.j_le, h.ne, h.le, h.lo, h.hi, ?_, h.conv⟩
  simp only [exArcs, List.mem_cons, List.not_mem_nil, or_false] at hp
  rcases hp with rfl | rfl | rfl <;> decide

/-- `k` variables which would rather be 1 than 0 and must not exceed a variable which is 0 -/
def leanArcs (k : Nat) : List (Pair K) :=
  ⟨1, 0, 0, 0, fun _ => 0⟩ :: ((List.range k).map (fun i => ⟨i + 2, 0, 0, 1, fun x => -(x : K)⟩) ++
    (List.range k).map fun i => ⟨i + 2, 1, -1, 0, fun _ => 0⟩)

/-- the limits for these arcs -/
def leanLimits (k : Nat) : List (OmegaLimit K) := (leanArcs (K := K) k).map fun p => { l := p.l, u := p.u, fn := fun x => .ok (p.B x), i := p.i, j := p.j }

theorem leanArcs_rep (k : Nat) : List.Forall₂ OmegaLimit.Is (leanLimits (K := K) k) (leanArcs k) := by
  unfold leanLimits
  rw [List.forall₂_map_left_iff, List.forall₂_same]
  intro p _
  exact ⟨rfl, rfl, rfl, rfl, fun _ _ _ => rfl⟩

theorem mem_leanArcs {k : Nat} {p : Pair K} : p ∈ leanArcs k ↔ p = ⟨1, 0, 0, 0, fun _ => 0⟩ ∨ (∃ i < k, p = ⟨i + 2, 0, 0, 1, fun x => -(x : K)⟩) ∨
    ∃ i < k, p = ⟨i + 2, 1, -1, 0, fun _ => 0⟩ := by
  simp only [leanArcs, List.mem_cons, List.mem_append, List.mem_map, List.mem_range]
  constructor
  · rintro (h | ⟨i, h1, h2⟩ | ⟨i, h1, h2⟩)
    · exact .inl h
    · exact .inr (.inl ⟨i, h1, h2.symm⟩)
    · exact .inr (.inr ⟨i, h1, h2.symm⟩)
  · rintro (h | ⟨i, h1, h2⟩ | ⟨i, h1, h2⟩)
    · exact .inl h
    · exact .inr (.inl ⟨i, h1, h2.symm⟩)
    · exact .inr (.inr ⟨i, h1, h2.symm⟩)

theorem leanArcs_in (k : Nat) : ∀ p ∈ leanArcs (K := K) k, ArcIn (k + 1) 1 1 p := by
  intro p hp
  rcases mem_leanArcs.1 hp with rfl | ⟨i, hi, rfl⟩ | ⟨i, hi, rfl⟩
  · exact ⟨by simp, by simp, by simp, by simp, by simp, by simp, by simp, fun x _ _ => le_rfl⟩
  · refine ⟨by simp; omega, by simp, by simp, by simp, by simp, by simp, by simp, fun x _ _ => ?_⟩
    push_cast; linarith
  · exact ⟨by simp; omega, by simp, by simp, by simp, by simp, by simp, by simp, fun x _ _ => le_rfl⟩

theorem lean_consts (k : Nat) : vcm (leanArcs (K := K) k) = 0 ∧ bigM (leanArcs (K := K) k) = k + 1 := by
  have m0 : ∀ i j : Nat, ∀ l u : Int, l ≤ u → mnP (⟨i, j, l, u, fun _ => 0⟩ : Pair K) = 0 := fun i j l u h =>
    mnP_eq ⟨⟨l, le_rfl, h, rfl⟩, fun x _ _ => le_rfl⟩
  have m1 : ∀ i j : Nat, mnP (⟨i, j, 0, 1, fun x => -(x : K)⟩ : Pair K) = -1 := fun i j =>
    mnP_eq ⟨⟨1, by norm_num, le_rfl, by simp⟩, fun x h1 h2 => by
      have h2 : x ≤ 1 := h2
      have : (x : K) ≤ 1 := by exact_mod_cast h2
      simpa using this⟩
  constructor
  · unfold vcm leanArcs
    simp [mxP, Function.comp_def]
  · unfold bigM leanArcs
    simp only [List.map_cons, List.map_append, List.map_map, Function.comp_def, List.sum_cons, List.sum_append, m1, mxP]
    rw [m0 _ _ _ _ le_rfl]
    have : ∀ i : Nat, mnP (⟨i + 2, 1, -1, 0, fun _ => 0⟩ : Pair K) = 0 := fun i => m0 _ _ _ _ (by norm_num)
    simp only [this]
    simp [add_comm]

theorem lean_least (k : Nat) : IsLeast {w : K | ∃ π, ArcsFeasible (leanArcs (K := K) k) π ∧ w = arcsCost (leanArcs k) π} 0 := by
  constructor
  · refine ⟨fun _ => 0, fun p hp => ?_, ?_⟩
    · rcases mem_leanArcs.1 hp with rfl | ⟨i, hi, rfl⟩ | ⟨i, hi, rfl⟩ <;> simp
    · unfold arcsCost leanArcs
      simp [Function.comp_def]
  · rintro w ⟨π, h, rfl⟩
    unfold arcsCost
    refine sum_map_nonneg (f := fun p : Pair K => p.B (π p.i - π p.j)) fun p hp => ?_
    have h1 := h _ (mem_leanArcs.2 (.inl rfl))
    rcases mem_leanArcs.1 hp with rfl | ⟨i, hi, rfl⟩ | ⟨i, hi, rfl⟩
    · exact le_rfl
    · have h2 := h _ (mem_leanArcs.2 (.inr (.inl ⟨i, hi, rfl⟩)))
      have h3 := h _ (mem_leanArcs.2 (.inr (.inr ⟨i, hi, rfl⟩)))
      dsimp only at h1 h2 h3 ⊢
      rw [show π (i + 2) - π 0 = 0 by omega]
      simp
    · exact le_rfl

/-- C90. The number `M` of `calc` can not be replaced by one which is smaller by more than 1: in a network in which it is `k + 1`, with any penalty in `[1, k)` the result is less than the
least cost. (`k` variables would rather be 1 than 0, but must not exceed another variable, which is 0. To raise that one costs `M` and gains `k`.) -/
theorem C90_M_needed (k : Nat) : (∃ U, Returns (fun fuel => ProblemSolver.calc' (2 ^ 31 - 1) fuel (leanLimits (K := K) k)) (0, (k : K) + 1, U)) ∧
    IsLeast {w : K | ∃ π, ArcsFeasible (leanArcs (K := K) k) π ∧ w = arcsCost (leanArcs k) π} 0 ∧
    ∀ (imax : Int) (M' : K) (U' : Int), 1 ≤ M' → M' < k → 1 ≤ U' → NetCapacity imax (k + 1) U' 1 →
      ∃ v, Returns (flowMinCost imax (k + 1) M' U' (leanLimits k)) v ∧ v < 0 := by
  obtain ⟨U, hU⟩ := calc_returns (imax := 2 ^ 31 - 1) (leanArcs_rep (K := K) k) (leanArcs_in k) (by norm_num)
  rw [(lean_consts k).1, (lean_consts k).2] at hU
  refine ⟨⟨U, hU⟩, lean_least k, fun imax M' U' h1 h2 hU' cap => ?_⟩
  have I : NetInput imax (k + 1) M' U' 1 (leanLimits k) (leanArcs k) := by
    refine ⟨leanArcs_rep k, fun p hp => ?_, by linarith, by decide, hU', cap⟩
    have h := leanArcs_in k p hp
    refine ⟨h.i_le, h.j_le, h.ne, h.le, h.lo, h.hi, h.conv, fun x _ _ => ?_⟩
    rcases mem_leanArcs.1 hp with rfl | ⟨i, hi, rfl⟩ | ⟨i, hi, rfl⟩
    · simp only [sub_self, abs_zero]; linarith
    · dsimp only
      push_cast
      rw [show -((x : K) + 1) - -(x : K) = -1 by ring, abs_neg, abs_one]
      exact h1
    · simp only [sub_self, abs_zero]; linarith
  obtain ⟨v, hv, -, hl⟩ := C21_min_cost I
  refine ⟨v, hv, ?_⟩
  have h3 : v ≤ penalised M' (leanArcs k) fun i => if i = 0 then 0 else 1 := hl ⟨_, rfl⟩
  have h4 : penalised M' (leanArcs k) (fun i => if i = 0 then 0 else 1) = M' - k := by
    unfold penalised leanArcs
    simp [penal, Function.comp_def]
    ring
  rw [h4] at h3
  linarith

end

/-- The hypotheses of the second theorem for three variables and the penalty 2. -/
example : (1 : ℚ) ≤ 2 ∧ (2 : ℚ) < (3 : Nat) ∧ NetCapacity (2 ^ 31 - 1) (3 + 1) 1 1 := by
  have : Nat.clog 2 10 = 4 := by decide +kernel
  refine ⟨by norm_num, by norm_num, ?_⟩
  constructor <;> simp [epsilon₀, bitCeil, this]

/-- There the least cost is 0; with the `M` of `calc`, which is 4, and also with 3 the result is 0, with 2 it is -1. -/
example : flowMinCost (2 ^ 31 - 1) 4 (4 : ℚ) 1 (leanLimits 3) 60 = .ok 0 ∧ flowMinCost (2 ^ 31 - 1) 4 (3 : ℚ) 1 (leanLimits 3) 60 = .ok 0 ∧
    flowMinCost (2 ^ 31 - 1) 4 (2 : ℚ) 1 (leanLimits 3) 60 = .ok (-1) := by
  decide +kernel

/-- three variables in `[0, 1]`, each less than the next -/
def climbArcs : List (Pair ℚ) := [⟨1, 0, 0, 1, fun _ => 0⟩, ⟨2, 0, 0, 1, fun _ => 0⟩, ⟨3, 0, 0, 1, fun _ => 0⟩,
  ⟨1, 2, -1, -1, fun _ => 0⟩, ⟨2, 3, -1, -1, fun _ => 0⟩]

/-- the limits for these arcs -/
def climbLimits : List (OmegaLimit ℚ) := climbArcs.map fun p => { l := p.l, u := p.u, fn := fun x => .ok (p.B x), i := p.i, j := p.j }

/-- C90. The number `M` must be greater than the sum of all `max - min`, so that `calc` rightly begins with 1 (by the first theorem any positive number would do): without the 1 it is 0 for a network
without costs, and then the result of `min_cost` does not exceed `valid_cost_max` although the ranges can not be respected. -/
theorem C90_one_needed : Returns (fun fuel => ProblemSolver.calc' (2 ^ 31 - 1) fuel climbLimits) (0, 1, 1) ∧
    (¬ ∃ π, ArcsFeasible climbArcs π) ∧ Returns (flowMinCost (2 ^ 31 - 1) 3 1 1 climbLimits) 1 ∧
    Returns (flowMinCost (2 ^ 31 - 1) 3 (1 - 1) 1 climbLimits) 0 := by
  refine ⟨returns_of_eval 40 (by decide +kernel) fun _ _ h => ProblemSolver.calcLoop_le h _ _, ?_,
    returns_of_eval 60 (by decide +kernel) fun _ _ h => flowMinCost_le h, returns_of_eval 60 (by decide +kernel) fun _ _ h => flowMinCost_le h⟩
  rintro ⟨π, h⟩
  have h1 := h ⟨1, 0, 0, 1, fun _ => 0⟩ (by simp [climbArcs])
  have h2 := h ⟨3, 0, 0, 1, fun _ => 0⟩ (by simp [climbArcs])
  have h3 := h ⟨1, 2, -1, -1, fun _ => 0⟩ (by simp [climbArcs])
  have h4 := h ⟨2, 3, -1, -1, fun _ => 0⟩ (by simp [climbArcs])
  dsimp only at h1 h2 h3 h4
  omega

end AHO.Props
