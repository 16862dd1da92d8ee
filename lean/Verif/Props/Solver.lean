import Verif.Proof.Transform
import Verif.Proof.Malformed
import Verif.Props.Example
/-!
# Properties of `ProblemSolver`

`ProblemSolver.run imax fuel n Mus Omegas` is `ProblemSolver(n, Mus, Omegas).solve()` with an `int` of maximum
`imax`, every loop limited to `fuel` rounds. `Returns f r` says that the program ends normally with result `r`.
The costs are in an arbitrary linearly ordered field.
-/

namespace AHO.Props
open Spec

section
variable {K : Type} [Field K] [LinearOrder K] [IsStrictOrderedRing K]
variable {P : Problem K} {Mus : List (MuLimit K)} {Omegas : List (OmegaLimit K)} {imax : Int}

/-! ### C01, C02: the result -/

/-- C01. The program returns the optimum: its result is the value `v` exactly if `v` is the least cost of an
assignment which satisfies the constraints. -/
theorem C01_solve_returns_optimum (rep : Represents P Mus Omegas) (wf : WellFormed P) (cv : ConvexCosts P)
    (hn : P.n + 1 < 2 ^ 64) (cap : Capacity imax P) :
    ∃ r, Returns (fun fuel => ProblemSolver.run imax fuel P.n Mus Omegas) r ∧ ∀ v, r = some v ↔ IsOptimum P v := by
  obtain ⟨r, h1, h2⟩ := ProblemSolver.run_capacity rep wf cv hn cap
  exact ⟨r, h2, outcome_some h1⟩

example : Represents exP exMus exOmegas ∧ WellFormed exP ∧ ConvexCosts exP ∧ exP.n + 1 < 2 ^ 64 ∧
    Capacity (2 ^ 31 - 1) exP := ⟨ex_rep, ex_wf, ex_cv, ex_n, ex_capacity⟩

/-- The example is not an infeasible one: the optimum of `exP` is 9. -/
example : IsOptimum exP 9 := by
  obtain ⟨r, h1, h2⟩ := C01_solve_returns_optimum ex_rep ex_wf ex_cv ex_n ex_capacity
  refine (h2 9).1 ?_
  have : ProblemSolver.run (2 ^ 31 - 1) 1000 exP.n exMus exOmegas = .ok (some 9) := by decide +kernel
  exact h1.value 1000 this

/-- C02. The program returns nothing exactly if the constraints cannot be met. -/
theorem C02_nullopt_iff_infeasible (rep : Represents P Mus Omegas) (wf : WellFormed P) (cv : ConvexCosts P)
    (hn : P.n + 1 < 2 ^ 64) (cap : Capacity imax P) :
    ∃ r, Returns (fun fuel => ProblemSolver.run imax fuel P.n Mus Omegas) r ∧ (r = none ↔ ¬ Solvable P) := by
  obtain ⟨r, h1, h2⟩ := ProblemSolver.run_capacity rep wf cv hn cap
  exact ⟨r, h2, outcome_none h1⟩

/-- an infeasible instance: `μ₁ - μ₂ ≤ -1` and `μ₂ - μ₁ ≤ -1` -/
def noP : Problem ℚ where
  n := 2
  lo _ := 0
  hi _ := 3
  F _ x := x
  pairs := [⟨1, 2, -3, -1, fun x => (x : ℚ)⟩, ⟨2, 1, -3, -1, fun x => (x : ℚ)⟩]

/-- `Mus` for `noP` -/
def noMus : List (MuLimit ℚ) := [⟨0, 0, fun _ => .error .callback⟩, ⟨0, 3, fun x => .ok x⟩, ⟨0, 3, fun x => .ok x⟩]

/-- `Omegas` for `noP` -/
def noOmegas : List (OmegaLimit ℚ) := [⟨⟨-3, -1, fun x => .ok x⟩, 1, 2⟩, ⟨⟨-3, -1, fun x => .ok x⟩, 2, 1⟩]

theorem no_rep : Represents noP noMus noOmegas := by
  refine ⟨rfl, ?_, ?_⟩
  · intro i h h1
    have h3 : i < 3 := h
    interval_cases i <;> exact ⟨rfl, rfl, fun x _ _ => rfl⟩
  · exact .cons ⟨rfl, rfl, rfl, rfl, fun x _ _ => rfl⟩ (.cons ⟨rfl, rfl, rfl, rfl, fun x _ _ => rfl⟩ .nil)

theorem no_wf : WellFormed noP := by
  constructor <;> simp [noP]

theorem no_cv : ConvexCosts noP := by
  constructor
  · intro i _ _ x _ _; simp only [noP]; push_cast; linarith
  · intro p hp x _ _
    simp only [noP, List.mem_cons, List.not_mem_nil, or_false] at hp
    rcases hp with rfl | rfl <;> (push_cast; linarith)

theorem no_capacity : Capacity (2 ^ 31 - 1) noP := by
  refine ⟨⟨by simp [noP], by simp [noP]⟩, 3, ⟨by simp [noP], by simp [noP], by simp [noP], by simp [noP]⟩,
    ⟨by simp [noP], by simp [noP]⟩, ?_⟩
  have : Nat.clog 2 9 = 4 := by decide +kernel
  simp [noP, bitCeil, this]

/-- Infeasible instances exist, and on this one the program returns nothing. -/
example : ¬ Solvable noP := by
  obtain ⟨r, h1, h2⟩ := C02_nullopt_iff_infeasible no_rep no_wf no_cv (by simp [noP]) no_capacity
  refine h2.1 ?_
  have : ProblemSolver.run (2 ^ 31 - 1) 300 noP.n noMus noOmegas = .ok none := by decide +kernel
  exact h1.value 300 this

/-! ### C03, C05, C06, C07: termination, absence of undefined behaviour, size of `int` -/

/-- C03. With the explicit number of rounds below, polynomial in `n`, the number of pairs and the sizes of the
ranges, no loop is stopped early and a result is produced. -/
theorem C03_terminates (rep : Represents P Mus Omegas) (wf : WellFormed P) (cv : ConvexCosts P)
    (hn : P.n + 1 < 2 ^ 64) (ri : Representable imax P) {W : Nat} (wi : Within P W) (wd : Widths P W)
    (cap : ((6 * (P.n + 1) * bitCeil ((P.n + 1) * W) : Nat) : Int) ≤ imax) (fuel : Nat)
    (hf : (2 * P.n * W + 3 * P.n + 1) * (6 * (P.pairs.length + P.n) + P.n + 1) + 4 * (P.pairs.length + P.n) + P.n + 2 +
        Nat.clog 2 ((P.n + 1) * W) + Nat.log 2 (2 * imax).toNat + 6 ≤ fuel) :
    ∃ r, ProblemSolver.run imax fuel P.n Mus Omegas = .ok r := by
  obtain ⟨r, h, -⟩ := ProblemSolver.run_spec (R := W) (W := W) rep wf cv wi wd ri hn (by omega) le_rfl
    (by push_cast at cap ⊢; simpa using cap) (fuel := fuel)
    (by
      unfold solveFuel Flow.bits Flow.roundFuel
      simp only [Int.toNat_natCast]
      rw [show 3 * (2 * (P.pairs.length + P.n)) + (P.n + 1) = 6 * (P.pairs.length + P.n) + P.n + 1 by ring]
      omega)
  exact ⟨r, h⟩

example : Within exP (8 : Nat) ∧ Widths exP (8 : Nat) ∧
    ((6 * (exP.n + 1) * bitCeil ((exP.n + 1) * 8) : Nat) : Int) ≤ 2 ^ 31 - 1 := by
  refine ⟨?_, ex_widths, by rw [ex_bitCeil]; simp [exP]⟩
  have := ex_within
  refine ⟨fun i h1 h2 => ?_, fun i h1 h2 => ?_, fun p hp => ?_, fun p hp => ?_⟩
  · have := this.lo i h1 h2; push_cast; omega
  · have := this.hi i h1 h2; push_cast; omega
  · have := this.u p hp; push_cast; omega
  · have := this.diff p hp; push_cast; omega

/-- C05. Whatever the number of rounds allowed, the program does not fail: no access outside a vector, no null
pointer, no overflow, no access to an empty queue, no division by zero, no failed assertion, no call of a callback
which the callback refuses. -/
theorem C05_no_undefined_behaviour (rep : Represents P Mus Omegas) (wf : WellFormed P) (cv : ConvexCosts P)
    (hn : P.n + 1 < 2 ^ 64) (cap : Capacity imax P) (fuel : Nat) (e : Err)
    (he : ProblemSolver.run imax fuel P.n Mus Omegas = .error e) : e = .fuel := by
  obtain ⟨r, -, h2⟩ := ProblemSolver.run_capacity rep wf cv hn cap
  have := h2.2 fuel
  dsimp only at this
  rw [he] at this
  rcases this with h | h <;> cases h
  rfl

/-- Too few rounds do occur: the hypotheses can be met. -/
example : Represents exP exMus exOmegas ∧ WellFormed exP ∧ ConvexCosts exP ∧ exP.n + 1 < 2 ^ 64 ∧
    Capacity (2 ^ 31 - 1) exP ∧ ProblemSolver.run (2 ^ 31 - 1) 3 exP.n exMus exOmegas = .error .fuel :=
  ⟨ex_rep, ex_wf, ex_cv, ex_n, ex_capacity, by decide +kernel⟩

/-- C06. If zero lies in every node range and no pair has a negative upper end, then the capacity which
`ProblemDefine.hpp` demands of `int`, `6 (n+1) bit_ceil((n+1) U)` with `U` the greatest length of a range, is
enough: no overflow occurs, and the result is the optimum. -/
theorem C06_documented_capacity_suffices (rep : Represents P Mus Omegas) (wf : WellFormed P) (cv : ConvexCosts P)
    (hn : P.n + 1 < 2 ^ 64) (ri : Representable imax P) {U : Nat} (wd : Widths P U)
    (z : ∀ i, 1 ≤ i → i ≤ P.n → P.lo i ≤ 0 ∧ 0 ≤ P.hi i) (zu : ∀ p ∈ P.pairs, 0 ≤ p.u)
    (cap : ((6 * (P.n + 1) * bitCeil ((P.n + 1) * U) : Nat) : Int) ≤ imax) :
    (∀ fuel, ProblemSolver.run imax fuel P.n Mus Omegas ≠ .error .overflow) ∧
      ∃ r, Returns (fun fuel => ProblemSolver.run imax fuel P.n Mus Omegas) r ∧ ∀ v, r = some v ↔ IsOptimum P v := by
  have hc : Capacity imax P := by
    refine ⟨ri, U, ⟨fun i h1 h2 => ?_, fun i h1 h2 => ?_, fun p hp => ?_, fun p hp => ?_⟩, wd, cap⟩
    · have := wd.nodes i h1 h2; have := z i h1 h2; omega
    · have := wd.nodes i h1 h2; have := z i h1 h2; omega
    · have := wd.pairs p hp
      have := z _ (wf.i_pos p hp) (wf.i_le p hp)
      have := z _ (wf.j_pos p hp) (wf.j_le p hp)
      omega
    · have := wd.pairs p hp; have := zu p hp; omega
  refine ⟨fun fuel h => ?_, C01_solve_returns_optimum rep wf cv hn hc⟩
  cases C05_no_undefined_behaviour rep wf cv hn hc fuel _ h

/-- one node with range `[-1, 1]`, cost `x²`; `U = 2`, so `6 * 2 * bit_ceil(2 * 2) = 48` is demanded -/
def zP : Problem ℚ where
  n := 1
  lo _ := -1
  hi _ := 1
  F _ x := (x : ℚ) ^ 2
  pairs := []

example : Represents zP [⟨0, 0, fun _ => .ok 0⟩, ⟨-1, 1, fun x => .ok ((x : ℚ) ^ 2)⟩] [] ∧ WellFormed zP ∧ ConvexCosts zP ∧
    Widths zP (2 : Nat) ∧ (∀ i, 1 ≤ i → i ≤ zP.n → zP.lo i ≤ 0 ∧ 0 ≤ zP.hi i) ∧
    ((6 * (zP.n + 1) * bitCeil ((zP.n + 1) * 2) : Nat) : Int) = 48 := by
  refine ⟨⟨rfl, ?_, .nil⟩, ?_, ?_, ?_, by simp [zP], ?_⟩
  · intro i h h1
    have h3 : i < 2 := h
    interval_cases i
    exact ⟨rfl, rfl, fun x _ _ => rfl⟩
  · constructor <;> simp [zP]
  · constructor
    · intro i _ _ x _ _; simp only [zP]; push_cast; nlinarith
    · simp [zP]
  · constructor <;> simp [zP]
  · have : Nat.clog 2 4 = 2 := by decide +kernel
    simp [zP, bitCeil, this]

/-- one node with range `[lo, lo + 1]`, cost `x` -/
def farP (lo : Int) : Problem ℚ where
  n := 1
  lo _ := lo
  hi _ := lo + 1
  F _ x := x
  pairs := []

/-- `Mus` for `farP` -/
def farMus (lo : Int) : List (MuLimit ℚ) := [⟨0, 0, fun _ => .ok 0⟩, ⟨lo, lo + 1, fun x => .ok x⟩]

theorem far_rep (lo : Int) : Represents (farP lo) (farMus lo) [] := by
  refine ⟨rfl, ?_, .nil⟩
  intro i h h1
  have h3 : i < 2 := h
  interval_cases i
  exact ⟨rfl, rfl, fun x _ _ => rfl⟩

theorem far_wf (lo : Int) : WellFormed (farP lo) := by constructor <;> simp [farP]

theorem far_cv (lo : Int) : ConvexCosts (farP lo) := by
  constructor
  · intro i _ _ x _ _; simp only [farP]; push_cast; linarith
  · simp [farP]

/-- C07, first part. Away from zero the documented capacity is not enough. With `U = 1` and `n = 1` it demands
that `int` can hold 24. For the 32-bit `int` and the range `[-2^31, -2^31 + 1]`, and also for an `int` of maximum
24 and the range `[10, 11]`, signed overflow occurs. -/
theorem C07_documented_capacity_insufficient :
    ∃ (P : Problem ℚ) (Mus : List (MuLimit ℚ)), Represents P Mus [] ∧ WellFormed P ∧ ConvexCosts P ∧ Widths P (1 : Nat) ∧
      P.n + 1 < 2 ^ 64 ∧ (∀ i, -2 ^ 31 ≤ P.lo i ∧ P.hi i ≤ 2 ^ 31 - 1) ∧
      ((6 * (P.n + 1) * bitCeil ((P.n + 1) * 1) : Nat) : Int) ≤ 2 ^ 31 - 1 ∧
      ∃ fuel, ProblemSolver.run (2 ^ 31 - 1) fuel P.n Mus [] = .error .overflow := by
  refine ⟨farP (-2 ^ 31), farMus (-2 ^ 31), far_rep _, far_wf _, far_cv _, ⟨by simp [farP], by simp [farP]⟩, by simp [farP],
    by simp [farP], ?_, 100, by decide +kernel⟩
  have : Nat.clog 2 2 = 1 := by decide +kernel
  simp [farP, bitCeil, this]

theorem C07_documented_capacity_insufficient_inside :
    ∃ (P : Problem ℚ) (Mus : List (MuLimit ℚ)), Represents P Mus [] ∧ WellFormed P ∧ ConvexCosts P ∧ Widths P (1 : Nat) ∧
      P.n + 1 < 2 ^ 64 ∧ (∀ i, 0 ≤ P.lo i ∧ 2 * P.hi i ≤ 24) ∧
      ((6 * (P.n + 1) * bitCeil ((P.n + 1) * 1) : Nat) : Int) ≤ 24 ∧
      ∃ fuel, ProblemSolver.run 24 fuel P.n Mus [] = .error .overflow := by
  refine ⟨farP 10, farMus 10, far_rep _, far_wf _, far_cv _, ⟨by simp [farP], by simp [farP]⟩, by simp [farP],
    by simp [farP], ?_, 200, by decide +kernel⟩
  have : Nat.clog 2 2 = 1 := by decide +kernel
  simp [farP, bitCeil, this]

/-- C07, second part. It is enough that `int` can hold `6 (n+1) bit_ceil((n+1) W)`, where `W` bounds the lengths of the
ranges and also their distance from zero. -/
theorem C07_corrected_capacity (rep : Represents P Mus Omegas) (wf : WellFormed P) (cv : ConvexCosts P)
    (hn : P.n + 1 < 2 ^ 64) (ri : Representable imax P) {W : Nat} (wi : Within P W) (wd : Widths P W)
    (cap : ((6 * (P.n + 1) * bitCeil ((P.n + 1) * W) : Nat) : Int) ≤ imax) (fuel : Nat) :
    ProblemSolver.run imax fuel P.n Mus Omegas ≠ .error .overflow := by
  intro h
  cases C05_no_undefined_behaviour rep wf cv hn ⟨ri, W, wi, wd, cap⟩ fuel _ h

example : Represents (farP 10) (farMus 10) [] ∧ Within (farP 10) (11 : Nat) ∧ Widths (farP 10) (11 : Nat) ∧
    ((6 * ((farP 10).n + 1) * bitCeil (((farP 10).n + 1) * 11) : Nat) : Int) ≤ 384 := by
  refine ⟨far_rep _, ⟨by simp [farP], by simp [farP], by simp [farP], by simp [farP]⟩, ⟨by simp [farP], by simp [farP]⟩, ?_⟩
  have : Nat.clog 2 22 = 5 := by decide +kernel
  simp [farP, bitCeil, this]

/-! ### C04, C33: malformed input, safety of the constructor -/

/-- C04. If the input is malformed (wrong number of node limits, an empty range, an index outside `1..n`, `i = j`, or a
least difference of the nodes above the upper end of a pair), the program returns nothing. The costs need not be
convex. -/
theorem C04_malformed_rejected {D : Type} [Zero D] [One D] [Add D] [Sub D] [Neg D] [Mul D] [Div D] [IntCast D]
    [LT D] [LE D] [DecidableLT D] [DecidableLE D] [BEq D]
    {n : Nat} {Mus : List (MuLimit D)} {Omegas : List (OmegaLimit D)} (hn : n + 1 < 2 ^ 64)
    (hdiff : ∀ i j (mi mj : MuLimit D), 1 ≤ i → 1 ≤ j → Mus[i]? = some mi → Mus[j]? = some mj →
      -imax - 1 ≤ mi.l - mj.u ∧ mi.l - mj.u ≤ imax)
    (hcall : ∀ o ∈ Omegas, Callable imax o) (bad : Malformed n Mus Omegas) :
    Returns (fun fuel => ProblemSolver.run imax fuel n Mus Omegas) none := by
  refine returns_of (Flow.bits imax + 1) (fun fuel hf => ?_) fun f f' hff => ProblemSolver.run_le hff n Mus Omegas
  have inv : ProblemSolver.mk' imax fuel n Mus Omegas = .ok ProblemSolver.invalid := by
    unfold ProblemSolver.mk'
    rw [Nat.mod_eq_of_lt hn]
    by_cases hlen : Mus.length = n + 1
    swap
    · rw [if_pos hlen]
    rw [if_neg (not_not.2 hlen)]
    obtain ⟨b, b1, b2⟩ := checkMus_total (Mus := Mus) n 1 (by omega)
    rw [b1, ok_bind]
    cases b with
    | false => rw [if_pos (by simp)]
    | true =>
      rw [if_neg (by simp)]
      obtain ⟨r, r1, r2⟩ := processOmegas_total hlen hdiff (show Flow.bits imax < fuel by omega) Omegas hcall
      rw [r1, ok_bind]
      rcases bad with h | ⟨i, m, h1, h2, h3, h4⟩ | h
      · exact absurd hlen h
      · have := b2.1 rfl i m h1 (by omega) h3
        omega
      · rw [r2 h]
  unfold ProblemSolver.run
  rw [inv, ok_bind]
  unfold ProblemSolver.solve ProblemSolver.invalid
  rw [if_pos rfl]

/-- a limit with index `3` for `n = 2` -/
example : (∀ i j (mi mj : MuLimit ℚ), 1 ≤ i → 1 ≤ j → noMus[i]? = some mi → noMus[j]? = some mj →
      -(2 ^ 31 - 1) - 1 ≤ mi.l - mj.u ∧ mi.l - mj.u ≤ (2 ^ 31 - 1 : Int)) ∧
    (∀ o ∈ [(⟨⟨0, 3, fun x => .ok (x : ℚ)⟩, 3, 1⟩ : OmegaLimit ℚ)], Callable (2 ^ 31 - 1) o) ∧
    Malformed 2 noMus [(⟨⟨0, 3, fun x => .ok (x : ℚ)⟩, 3, 1⟩ : OmegaLimit ℚ)] := by
  refine ⟨?_, ?_, ?_⟩
  · intro i j mi mj h1 h2 e1 e2
    have key : ∀ i m, 1 ≤ i → noMus[i]? = some m → m.l = 0 ∧ m.u = 3 := by
      intro i m hi hm
      match i, hi with
      | 1, _ => simp [noMus] at hm; subst hm; exact ⟨rfl, rfl⟩
      | 2, _ => simp [noMus] at hm; subst hm; exact ⟨rfl, rfl⟩
      | i + 3, _ => simp [noMus] at hm
    rw [(key i mi h1 e1).1, (key j mj h2 e2).2]
    norm_num
  · intro o ho
    simp only [List.mem_singleton] at ho
    subst ho
    exact ⟨by norm_num, by norm_num, by norm_num, fun x _ _ => ⟨_, rfl⟩⟩
  · exact .inr (.inr ⟨_, List.mem_singleton.2 rfl, .inl (by simp)⟩)

/-- C33, first part. With `n = size_t(-1)` and no node limits, the check `Mus.size() == n + 1` wraps around and succeeds,
and the constructor reads `Mus[1]` outside the vector. -/
theorem C33_wraparound_reads_out_of_bounds {D : Type} [LT D] [DecidableLT D] (fuel : Nat) (Omegas : List (OmegaLimit D)) :
    ProblemSolver.mk' imax fuel (2 ^ 64 - 1) [] Omegas = .error .oob := by
  unfold ProblemSolver.mk'
  rw [if_neg (by simp)]
  rw [show (2 ^ 64 - 1 : Nat) = (2 ^ 64 - 2) + 1 by norm_num]
  rfl

/-- C33, second part. For every other `n` the constructor reads nothing outside its vectors, for arbitrary arguments:
no assumption on ranges, indices, convexity, or which arguments the callbacks accept. -/
theorem C33_constructor_memory_safe {D : Type} [LT D] [DecidableLT D] {n : Nat} {Mus : List (MuLimit D)}
    {Omegas : List (OmegaLimit D)} (hn : n + 1 < 2 ^ 64) (hfn : ∀ o ∈ Omegas, ∀ x, o.fn x ≠ .error .oob) (fuel : Nat) :
    ProblemSolver.mk' imax fuel n Mus Omegas ≠ .error .oob := by
  unfold ProblemSolver.mk'
  rw [Nat.mod_eq_of_lt hn]
  by_cases hlen : Mus.length = n + 1
  swap
  · rw [if_pos hlen]; intro h; cases h
  rw [if_neg (not_not.2 hlen)]
  obtain ⟨b, b1, -⟩ := checkMus_total (Mus := Mus) n 1 (by omega)
  rw [b1, ok_bind]
  cases b with
  | false => rw [if_pos (by simp)]; intro h; cases h
  | true =>
    rw [if_neg (by simp)]
    have := processOmegas_oob (imax := imax) (fuel := fuel) (n := n) (Mus := Mus) (by omega) Omegas hfn
    cases h : ProblemSolver.processOmegas imax fuel n Mus Omegas with
    | error e =>
      intro hh
      have : e = .oob := by simpa using hh
      subst this
      exact this h
    | ok r =>
      rw [ok_bind]
      cases r <;> (intro h; cases h)

example : ∀ o ∈ exOmegas, ∀ x, o.fn x ≠ .error .oob := by
  intro o ho x
  simp only [exOmegas, List.mem_cons, List.not_mem_nil, or_false] at ho
  rcases ho with rfl | rfl <;> dsimp only <;> split <;> simp

/-! ### C08, C09, C11: what the result depends on -/

/-- A callback that refuses (by an exception, say) every argument outside `[l, u]`. -/
def guardFn {D : Type} (l u : Int) (fn : Fn D) : Fn D := fun x => if l ≤ x ∧ x ≤ u then fn x else .error .callback

/-- C08. The callbacks are called on their ranges only: if every callback is replaced by one which refuses all other
arguments, then the program ends normally as before, with the same result. -/
theorem C08_callbacks_only_in_range (rep : Represents P Mus Omegas) (wf : WellFormed P) (cv : ConvexCosts P)
    (hn : P.n + 1 < 2 ^ 64) (cap : Capacity imax P) :
    ∃ r, Returns (fun fuel => ProblemSolver.run imax fuel P.n Mus Omegas) r ∧
      Returns (fun fuel => ProblemSolver.run imax fuel P.n (Mus.map fun m => { m with fn := guardFn m.l m.u m.fn })
        (Omegas.map fun o => { o with fn := guardFn o.l o.u o.fn })) r := by
  obtain ⟨r, h1, h2⟩ := ProblemSolver.run_capacity rep wf cv hn cap
  have rep' : Represents P (Mus.map fun m => { m with fn := guardFn m.l m.u m.fn })
      (Omegas.map fun o => { o with fn := guardFn o.l o.u o.fn }) := by
    refine ⟨by simpa using rep.len, fun i h hi => ?_, ?_⟩
    · have := rep.mus i (by simpa using h) hi
      rw [List.getElem_map]
      refine ⟨this.l, this.u, fun x a b => ?_⟩
      exact (if_pos (by rw [this.l, this.u]; exact ⟨a, b⟩)).trans (this.fn x a b)
    · have := rep.omegas
      clear rep h1 h2 wf cv cap
      generalize P.pairs = ps at *
      induction this with
      | nil => exact .nil
      | cons h _ ih =>
        refine .cons ⟨h.i, h.j, h.l, h.u, fun x a b => ?_⟩ ih
        exact (if_pos (by rw [h.l, h.u]; exact ⟨a, b⟩)).trans (h.fn x a b)
  obtain ⟨r', h1', h2'⟩ := ProblemSolver.run_capacity rep' wf cv hn cap
  rw [outcome_unique h1' h1] at h2'
  exact ⟨r, h2, h2'⟩

/-- The callbacks in the example do refuse arguments outside their ranges. -/
example : Represents exP exMus exOmegas ∧ (∀ m ∈ exMus, m.fn (m.u + 1) = .error .callback) := by
  refine ⟨ex_rep, ?_⟩
  intro m hm
  simp only [exMus, List.mem_cons, List.not_mem_nil, or_false] at hm
  rcases hm with rfl | rfl | rfl <;> simp

/-- C09. The order of the pair limits is irrelevant. -/
theorem C09_order_irrelevant {Omegas' : List (OmegaLimit K)} (rep : Represents P Mus Omegas) (wf : WellFormed P)
    (cv : ConvexCosts P) (hn : P.n + 1 < 2 ^ 64) (cap : Capacity imax P) (perm : Omegas'.Perm Omegas) :
    ∃ r, Returns (fun fuel => ProblemSolver.run imax fuel P.n Mus Omegas) r ∧
      Returns (fun fuel => ProblemSolver.run imax fuel P.n Mus Omegas') r := by
  obtain ⟨r, h1, h2⟩ := ProblemSolver.run_capacity rep wf cv hn cap
  obtain ⟨ps, f, hp⟩ := List.perm_comp_forall₂ perm rep.omegas
  have hm : ∀ {p}, p ∈ ps → p ∈ P.pairs := fun h => hp.mem_iff.1 h
  obtain ⟨r', h1', h2'⟩ := ProblemSolver.run_capacity (P := { P with pairs := ps }) (imax := imax)
    ⟨rep.len, rep.mus, f⟩
    ⟨wf.nodes, fun p h => wf.i_pos p (hm h), fun p h => wf.i_le p (hm h), fun p h => wf.j_pos p (hm h),
      fun p h => wf.j_le p (hm h), fun p h => wf.ne p (hm h), fun p h => wf.le p (hm h)⟩
    ⟨cv.nodes, fun p h => cv.pairs p (hm h)⟩ hn
    (by
      obtain ⟨ri, W, wi, wd, hc⟩ := cap
      exact ⟨⟨fun p h => ri.lo p (hm h), fun p h => ri.width p (hm h)⟩, W,
        ⟨wi.lo, wi.hi, fun p h => wi.u p (hm h), fun p h => wi.diff p (hm h)⟩,
        ⟨wd.nodes, fun p h => wd.pairs p (hm h)⟩, hc⟩)
  rw [problemCosts_perm hp.symm] at h1'
  rw [outcome_unique h1' h1] at h2'
  exact ⟨r, h2, h2'⟩

example : Represents exP exMus exOmegas ∧ exOmegas.reverse.Perm exOmegas ∧ exOmegas.length = 2 :=
  ⟨ex_rep, List.reverse_perm _, rfl⟩

/-- C11. The entry `Mus[0]` has no influence at all: no assumption is made on the arguments, and the two executions
agree for every number of rounds, even in how they fail. -/
theorem C11_mus_zero_ignored {D : Type} [Zero D] [One D] [Add D] [Sub D] [Neg D] [Mul D] [Div D] [IntCast D]
    [LT D] [LE D] [DecidableLT D] [DecidableLE D] [BEq D]
    (fuel n : Nat) (m m' : MuLimit D) (Mus : List (MuLimit D)) (Omegas : List (OmegaLimit D)) :
    ProblemSolver.run imax fuel n (m :: Mus) Omegas = ProblemSolver.run imax fuel n (m' :: Mus) Omegas := by
  have hrd : ∀ i, 1 ≤ i → listRd (m :: Mus) i = listRd (m' :: Mus) i := by
    intro i hi
    obtain ⟨i, rfl⟩ : ∃ k, i = k + 1 := ⟨i - 1, by omega⟩
    unfold listRd
    simp
  have hcheck : ∀ cnt i, 1 ≤ i → ProblemSolver.checkMus (m :: Mus) i cnt = ProblemSolver.checkMus (m' :: Mus) i cnt := by
    intro cnt
    induction cnt with
    | zero => intro i _; rfl
    | succ cnt ih =>
      intro i hi
      unfold ProblemSolver.checkMus
      rw [hrd i hi, ih (i + 1) (by omega)]
  have hedges : ∀ cnt i, 1 ≤ i → ProblemSolver.musEdges (m :: Mus) i cnt = ProblemSolver.musEdges (m' :: Mus) i cnt := by
    intro cnt
    induction cnt with
    | zero => intro i _; rfl
    | succ cnt ih =>
      intro i hi
      unfold ProblemSolver.musEdges
      rw [hrd i hi, ih (i + 1) (by omega)]
  have hproc : ∀ Os, ProblemSolver.processOmegas imax fuel n (m :: Mus) Os = ProblemSolver.processOmegas imax fuel n (m' :: Mus) Os := by
    intro Os
    induction Os with
    | nil => rfl
    | cons o Os ih =>
      unfold ProblemSolver.processOmegas
      rw [ih]
      by_cases h1 : 1 ≤ o.i ∧ o.i ≤ n
      swap
      · rw [if_pos h1, if_pos h1]
      by_cases h2 : 1 ≤ o.j ∧ o.j ≤ n
      swap
      · rw [if_neg (not_not.2 h1), if_neg (not_not.2 h1), if_pos h2, if_pos h2]
      cases hp : o.preProcessing imax fuel with
      | error e => rfl
      | ok o' =>
        have e : o'.i = o.i ∧ o'.j = o.j := by
          unfold OmegaLimit.preProcessing at hp
          cases hq : partitionPoint imax (descends imax o.fn) fuel o.l o.u with
          | error e => rw [hq] at hp; cases hp
          | ok q => rw [hq, ok_bind] at hp; cases hp; exact ⟨rfl, rfl⟩
        simp only [ok_bind]
        rw [e.1, e.2, hrd _ h1.1, hrd _ h2.1]
  unfold ProblemSolver.run ProblemSolver.mk'
  rw [hcheck n 1 le_rfl, hproc]
  simp only [List.length_cons]
  split
  · rfl
  · cases ProblemSolver.checkMus (m' :: Mus) 1 n with
    | error e => rfl
    | ok b =>
      simp only [ok_bind]
      cases b
      · rfl
      · simp only [not_true_eq_false, if_false]
        cases ProblemSolver.processOmegas imax fuel n (m' :: Mus) Omegas with
        | error e => rfl
        | ok r =>
          cases r with
          | none => rfl
          | some Os =>
            simp only [ok_bind]
            unfold ProblemSolver.solve ProblemSolver.mergeLimits
            dsimp only
            rw [hedges n 1 le_rfl]

example : ProblemSolver.run (2 ^ 31 - 1) 1000 2 (⟨5, -5, fun _ => .error .callback⟩ :: exMus.tail) exOmegas = .ok (some 9) ∧
    ProblemSolver.run (2 ^ 31 - 1) 1000 2 (⟨-2 ^ 31, 2 ^ 31, fun _ => .ok 1⟩ :: exMus.tail) exOmegas = .ok (some 9) := by
  have : ProblemSolver.run (2 ^ 31 - 1) 1000 2 exMus exOmegas = .ok (some 9) := by decide +kernel
  exact ⟨(C11_mus_zero_ignored _ _ _ _ _ _).trans this, (C11_mus_zero_ignored _ _ _ _ _ _).trans this⟩

/-! ### C12, C13, C28, C29, C34: changes of the problem -/

/-- C12. Adding constants to the costs adds their sum to the optimum, and does not change whether there is one. -/
theorem C12_constants_shift_optimum {Mus' : List (MuLimit K)} {Omegas' : List (OmegaLimit K)} {a b : Nat → K}
    (rep : Represents P Mus Omegas) (rep' : Represents (P.addConstants a b) Mus' Omegas') (wf : WellFormed P)
    (cv : ConvexCosts P) (hn : P.n + 1 < 2 ^ 64) (cap : Capacity imax P) :
    ∃ r, Returns (fun fuel => ProblemSolver.run imax fuel P.n Mus Omegas) r ∧
      Returns (fun fuel => ProblemSolver.run imax fuel P.n Mus' Omegas')
        (r.map (· + (∑ i ∈ Finset.Icc 1 P.n, a i + ∑ k ∈ Finset.range P.pairs.length, b k))) := by
  obtain ⟨r, h1, h2⟩ := ProblemSolver.run_capacity rep wf cv hn cap
  obtain ⟨r', h1', h2'⟩ := ProblemSolver.run_capacity rep' (wf_addConstants wf) (cv_addConstants cv) hn (cap_addConstants cap)
  have := outcome_shift h1 h1' (costs_addConstants a b) (costs_addConstants' a b)
  rw [this] at h2'
  exact ⟨r, h2, h2'⟩

/-- Every problem is represented by some arguments, so the changed problems have representations, too. -/
theorem exists_rep {D : Type} (P : Problem D) : ∃ Mus Omegas, Represents P Mus Omegas := by
  refine ⟨(List.range (P.n + 1)).map fun i => ⟨P.lo i, P.hi i, fun x => .ok (P.F i x)⟩,
    P.pairs.map fun p => ⟨⟨p.l, p.u, fun x => .ok (p.B x)⟩, p.i, p.j⟩, by simp, fun i h _ => ?_, ?_⟩
  · rw [List.getElem_map, List.getElem_range]
    exact ⟨rfl, rfl, fun x _ _ => rfl⟩
  · generalize P.pairs = ps
    induction ps with
    | nil => exact .nil
    | cons p ps ih => exact .cons ⟨rfl, rfl, rfl, rfl, fun x _ _ => rfl⟩ ih

example : Represents exP exMus exOmegas ∧
    ∃ Mus' Omegas', Represents (exP.addConstants (fun i => if i = 1 then -100 else 0) fun _ => 7) Mus' Omegas' :=
  ⟨ex_rep, exists_rep _⟩

/-- C13, first part. Additional pairs with nonnegative costs do not decrease the optimum, nor make an infeasible problem
feasible. -/
theorem C13_more_pairs {qs : List (Pair K)} {Omegas' : List (OmegaLimit K)} (rep : Represents P Mus Omegas)
    (rep' : Represents { P with pairs := P.pairs ++ qs } Mus Omegas') (wf : WellFormed { P with pairs := P.pairs ++ qs })
    (cv : ConvexCosts { P with pairs := P.pairs ++ qs }) (hn : P.n + 1 < 2 ^ 64)
    (cap : Capacity imax { P with pairs := P.pairs ++ qs }) (hq : ∀ q ∈ qs, ∀ x, q.l ≤ x → x ≤ q.u → 0 ≤ q.B x) :
    ∃ r r', Returns (fun fuel => ProblemSolver.run imax fuel P.n Mus Omegas) r ∧
      Returns (fun fuel => ProblemSolver.run imax fuel P.n Mus Omegas') r' ∧
      ∀ v', r' = some v' → ∃ v, r = some v ∧ v ≤ v' := by
  have hm : ∀ {p}, p ∈ P.pairs → p ∈ P.pairs ++ qs := fun h => List.mem_append_left _ h
  obtain ⟨r, h1, h2⟩ := ProblemSolver.run_capacity (P := P) (imax := imax) rep
    ⟨wf.nodes, fun p h => wf.i_pos p (hm h), fun p h => wf.i_le p (hm h), fun p h => wf.j_pos p (hm h),
      fun p h => wf.j_le p (hm h), fun p h => wf.ne p (hm h), fun p h => wf.le p (hm h)⟩
    ⟨cv.nodes, fun p h => cv.pairs p (hm h)⟩ hn
    (by
      obtain ⟨ri, W, wi, wd, hc⟩ := cap
      exact ⟨⟨fun p h => ri.lo p (hm h), fun p h => ri.width p (hm h)⟩, W,
        ⟨wi.lo, wi.hi, fun p h => wi.u p (hm h), fun p h => wi.diff p (hm h)⟩,
        ⟨wd.nodes, fun p h => wd.pairs p (hm h)⟩, hc⟩)
  obtain ⟨r', h1', h2'⟩ := ProblemSolver.run_capacity rep' wf cv hn cap
  exact ⟨r, r', h2, h2', outcome_mono h1 h1' (costs_append hq)⟩

/-- `exP` has one pair more than this problem; its cost is not negative. -/
example : exP = { ({ exP with pairs := exP.pairs.take 1 } : Problem ℚ) with
      pairs := exP.pairs.take 1 ++ [⟨2, 1, 0, 5, fun x => 3 * (x : ℚ) ^ 2⟩] } ∧
    ∀ x : Int, (0 : ℚ) ≤ 3 * (x : ℚ) ^ 2 := ⟨rfl, fun x => by positivity⟩

/-- C13, second part. Smaller ranges do not decrease the optimum, nor make an infeasible problem feasible. -/
theorem C13_smaller_ranges {P' : Problem K} {Mus' : List (MuLimit K)} {Omegas' : List (OmegaLimit K)} (sh : P.Shrinks P')
    (rep : Represents P Mus Omegas) (rep' : Represents P' Mus' Omegas') (wf : WellFormed P) (wf' : WellFormed P')
    (cv : ConvexCosts P) (hn : P.n + 1 < 2 ^ 64) (cap : Capacity imax P) :
    ∃ r r', Returns (fun fuel => ProblemSolver.run imax fuel P.n Mus Omegas) r ∧
      Returns (fun fuel => ProblemSolver.run imax fuel P.n Mus' Omegas') r' ∧
      ∀ v', r' = some v' → ∃ v, r = some v ∧ v ≤ v' := by
  obtain ⟨r, h1, h2⟩ := ProblemSolver.run_capacity rep wf cv hn cap
  obtain ⟨r', h1', h2'⟩ := ProblemSolver.run_capacity rep' wf' (cv_shrinks sh cv) (by rw [sh.n]; exact hn) (cap_shrinks sh wf cap)
  rw [sh.n] at h2'
  exact ⟨r, r', h2, h2', outcome_mono h1 h1' fun v hv => ⟨v, costs_shrinks sh v hv, le_rfl⟩⟩

/-- `exP` with the range of node 1 cut from `[-2, 3]` to `[0, 3]` -/
example : exP.Shrinks { exP with lo := fun _ => 0 } ∧ WellFormed { exP with lo := fun _ => 0 } := by
  constructor
  · refine ⟨rfl, ?_, fun _ _ _ => le_rfl, fun _ _ _ => rfl, ?_⟩
    · intro i h1 h2
      have h3 : i ≤ 2 := h2
      interval_cases i <;> simp [exP]
    · exact .cons ⟨rfl, rfl, le_rfl, le_rfl, rfl⟩ (.cons ⟨rfl, rfl, le_rfl, le_rfl, rfl⟩ .nil)
  · constructor <;> simp [exP]
    intro i h1 h2
    interval_cases i <;> simp

/-- C28. Renaming the variables does not change the result. -/
theorem C28_renaming_invariant {σ : Equiv.Perm Nat} (hσ : ∀ i, 1 ≤ i → i ≤ P.n → 1 ≤ σ i ∧ σ i ≤ P.n)
    {Mus' : List (MuLimit K)} {Omegas' : List (OmegaLimit K)} (rep : Represents P Mus Omegas)
    (rep' : Represents (P.rename σ) Mus' Omegas') (wf : WellFormed P) (cv : ConvexCosts P) (hn : P.n + 1 < 2 ^ 64)
    (cap : Capacity imax P) :
    ∃ r, Returns (fun fuel => ProblemSolver.run imax fuel P.n Mus Omegas) r ∧
      Returns (fun fuel => ProblemSolver.run imax fuel P.n Mus' Omegas') r := by
  obtain ⟨r, h1, h2⟩ := ProblemSolver.run_capacity rep wf cv hn cap
  obtain ⟨r', h1', h2'⟩ := ProblemSolver.run_capacity rep' (wf_rename hσ wf) (cv_rename hσ cv) hn (cap_rename hσ cap)
  rw [costs_rename hσ] at h1'
  rw [outcome_unique h1' h1] at h2'
  exact ⟨r, h2, h2'⟩

/-- exchange the two variables of `exP` -/
example : (∀ i, 1 ≤ i → i ≤ exP.n → 1 ≤ Equiv.swap 1 2 i ∧ Equiv.swap 1 2 i ≤ exP.n) ∧
    ∃ Mus' Omegas', Represents (exP.rename (Equiv.swap 1 2)) Mus' Omegas' := by
  refine ⟨?_, exists_rep _⟩
  intro i h1 h2
  have h3 : i ≤ 2 := h2
  interval_cases i <;> decide

/-- C29. Translation of all node ranges together with their costs does not change the result. -/
theorem C29_translation_invariant {c : Int} {Mus' : List (MuLimit K)} {Omegas' : List (OmegaLimit K)}
    (rep : Represents P Mus Omegas) (rep' : Represents (P.translate c) Mus' Omegas') (wf : WellFormed P)
    (cv : ConvexCosts P) (hn : P.n + 1 < 2 ^ 64) (cap : Capacity imax P) (cap' : Capacity imax (P.translate c)) :
    ∃ r, Returns (fun fuel => ProblemSolver.run imax fuel P.n Mus Omegas) r ∧
      Returns (fun fuel => ProblemSolver.run imax fuel P.n Mus' Omegas') r := by
  obtain ⟨r, h1, h2⟩ := ProblemSolver.run_capacity rep wf cv hn cap
  obtain ⟨r', h1', h2'⟩ := ProblemSolver.run_capacity rep' (wf_translate wf) (cv_translate cv) hn cap'
  rw [costs_translate] at h1'
  rw [outcome_unique h1' h1] at h2'
  exact ⟨r, h2, h2'⟩

example : Capacity (2 ^ 31 - 1) (exP.translate (-1)) ∧ ∃ Mus' Omegas', Represents (exP.translate (-1)) Mus' Omegas' := by
  refine ⟨⟨⟨ex_representable.lo, ex_representable.width⟩, 8, ⟨?_, ?_, by simp [exP, Problem.translate], by simp [exP, Problem.translate]⟩, ⟨?_, by simp [exP, Problem.translate]⟩, ?_⟩, exists_rep _⟩
  · intro i h1 h2
    have h3 : i ≤ 2 := h2
    interval_cases i <;> simp [exP, Problem.translate]
  · intro i h1 h2
    have h3 : i ≤ 2 := h2
    interval_cases i <;> simp [exP, Problem.translate]
  · intro i h1 h2
    have h3 : i ≤ 2 := h2
    interval_cases i <;> simp [exP, Problem.translate]
  · have : bitCeil (((exP.translate (-1)).n + 1) * 8) = 32 := ex_bitCeil
    rw [this]; simp [exP, Problem.translate]

/-- C34. Without pairs, the result is the sum of the minima of the node costs. -/
theorem C34_independent_nodes (rep : Represents P Mus Omegas) (wf : WellFormed P) (cv : ConvexCosts P)
    (hn : P.n + 1 < 2 ^ 64) (cap : Capacity imax P) (hp : P.pairs = []) {m : Nat → K}
    (hm : ∀ i, 1 ≤ i → i ≤ P.n → (∃ x, P.lo i ≤ x ∧ x ≤ P.hi i ∧ P.F i x = m i) ∧ ∀ x, P.lo i ≤ x → x ≤ P.hi i → m i ≤ P.F i x) :
    Returns (fun fuel => ProblemSolver.run imax fuel P.n Mus Omegas) (some (∑ i ∈ Finset.Icc 1 P.n, m i)) := by
  obtain ⟨r, h1, h2⟩ := ProblemSolver.run_capacity rep wf cv hn cap
  rw [← (outcome_some h1 _).2 ?_]
  · exact h2
  have hx : ∀ i, ∃ x, 1 ≤ i → i ≤ P.n → P.lo i ≤ x ∧ x ≤ P.hi i ∧ P.F i x = m i := by
    intro i
    by_cases h : 1 ≤ i ∧ i ≤ P.n
    · obtain ⟨x, hx⟩ := (hm i h.1 h.2).1
      exact ⟨x, fun _ _ => hx⟩
    · exact ⟨0, fun a b => absurd ⟨a, b⟩ h⟩
  choose x hx using hx
  have e : ∀ μ ω, cost P μ ω = ∑ i ∈ Finset.Icc 1 P.n, P.F i (μ i) := by
    intro μ ω
    unfold cost
    have : ∀ ps : List (Pair K), ps = [] → ∑ k : Fin ps.length, ps[k].B (ω k) = 0 := by rintro ps rfl; simp
    rw [this _ hp, add_zero]
  refine ⟨⟨x, fun _ => 0, ⟨fun i h1 h2 => ⟨(hx i h1 h2).1, (hx i h1 h2).2.1⟩, fun k hk => by simp [hp] at hk⟩, ?_⟩, ?_⟩
  · rw [e]
    refine Finset.sum_congr rfl fun i hi => ?_
    rw [Finset.mem_Icc] at hi
    exact (hx i hi.1 hi.2).2.2
  · intro μ ω f
    rw [e]
    refine Finset.sum_le_sum fun i hi => ?_
    rw [Finset.mem_Icc] at hi
    exact (hm i hi.1 hi.2).2 _ (f.1 i hi.1 hi.2).1 (f.1 i hi.1 hi.2).2

/-- the minimum of `x²` on `[-1, 1]` is zero -/
example : zP.pairs = [] ∧ ∀ i, 1 ≤ i → i ≤ zP.n → (∃ x, zP.lo i ≤ x ∧ x ≤ zP.hi i ∧ zP.F i x = (fun _ => 0 : Nat → ℚ) i) ∧
    ∀ x, zP.lo i ≤ x → x ≤ zP.hi i → (fun _ => 0 : Nat → ℚ) i ≤ zP.F i x :=
  ⟨rfl, fun i _ _ => ⟨⟨0, by simp [zP], by simp [zP], by simp [zP]⟩, fun x _ _ => by simp only [zP]; positivity⟩⟩

end
end AHO.Props
