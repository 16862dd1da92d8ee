import Verif.Proof.IntData
import Verif.Props.Example
import Verif.Proof.Drift
/-!
# Properties of the program with an integer type as `Data`

`SInt b ov` is a signed integer type with the values `-b - 1, …, b`; `ov` gives the results of operations which overflow.
-/

namespace AHO.Props
open Spec

/-- C61. With a signed integer type as `Data` and integer costs of absolute value at most `G`, the program computes the exact optimum, and
nothing exactly if the constraints cannot be met, if `2 ((1 + 2 N G) (2 N (T + W + 2) + 2) + W + 2)` is a value of the type. (`N` is the number of limits,
`W` the bound of the ranges, and `T = ⌈log₂ (2 (n+1) W)⌉`.) This holds for every `ov`: the result does not depend on what is computed when
an operation overflows. -/
theorem C61_integer_exact {b : Int} {ov : Int → Int} {imax : Int} {P : Problem Int} {Mus : List (MuLimit (SInt b ov))}
    {Omegas : List (OmegaLimit (SInt b ov))}
    (rep : Represents (P.mapCosts (SInt.of b ov)) Mus Omegas) (wf : WellFormed P) (cv : ConvexCosts P)
    (hn : P.n + 1 < 2 ^ 64) (ri : Representable imax P) {W : Nat} (wi : Within P W) (wd : Widths P W)
    (cap : ((6 * (P.n + 1) * bitCeil ((P.n + 1) * W) : Nat) : Int) ≤ imax) {G : Nat} (hv : P.AllCosts fun v => |v| ≤ G)
    (hI : 2 * (((1 + 2 * ((P.pairs.length + P.n) * G)) *
      (2 * (P.pairs.length + P.n) * (Nat.clog 2 (2 * (P.n + 1) * W) + W + 2) + 2) + W + 2 : Nat) : Int) ≤ b) :
    ∃ r : Option Int, Returns (fun fuel => ProblemSolver.run imax fuel P.n Mus Omegas) (r.map (SInt.of b ov)) ∧
      (∀ v, r = some v ↔ IsOptimum P v) ∧ (r = none ↔ ¬ Solvable P) :=
  ProblemSolver.run_int rep wf cv wi wd ri hn cap hv hI

/-- the example with integer costs -/
def exZ : Problem Int where
  n := 2
  lo i := if i = 1 then -2 else 0
  hi i := if i = 1 then 3 else 4
  F i x := (x - i) ^ 2
  pairs := [⟨1, 2, -4, -2, fun x => 2 * x⟩, ⟨2, 1, 0, 5, fun x => 3 * x ^ 2⟩]

/-- `Mus` of the example -/
def exMusZ (b : Int) (ov : Int → Int) : List (MuLimit (SInt b ov)) :=
  [⟨0, 0, fun _ => .error .callback⟩, ⟨-2, 3, fun x => .ok (.of _ _ ((x - 1) ^ 2))⟩, ⟨0, 4, fun x => .ok (.of _ _ ((x - 2) ^ 2))⟩]

/-- `Omegas` of the example -/
def exOmegasZ (b : Int) (ov : Int → Int) : List (OmegaLimit (SInt b ov)) :=
  [⟨⟨-4, -2, fun x => .ok (.of _ _ (2 * x))⟩, 1, 2⟩, ⟨⟨0, 5, fun x => .ok (.of _ _ (3 * x ^ 2))⟩, 2, 1⟩]

/-- The example meets the hypotheses if `Data` has 32 bits. -/
example (ov : Int → Int) : ∃ r : Option Int,
    Returns (fun fuel => ProblemSolver.run (2 ^ 31 - 1) fuel exZ.n (exMusZ (2 ^ 31 - 1) ov) (exOmegasZ (2 ^ 31 - 1) ov))
      (r.map (SInt.of _ ov)) ∧ (∀ v, r = some v ↔ IsOptimum exZ v) ∧ (r = none ↔ ¬ Solvable exZ) := by
  refine C61_integer_exact (W := 8) (G := 75) ⟨rfl, ?_, .cons ⟨rfl, rfl, rfl, rfl, fun x a b => rfl⟩
    (.cons ⟨rfl, rfl, rfl, rfl, fun x a b => rfl⟩ .nil)⟩ ⟨?_, ?_, ?_, ?_, ?_, ?_, ?_⟩ ⟨?_, ?_⟩ (by decide) ⟨?_, ?_⟩ ⟨?_, ?_, ?_, ?_⟩ ⟨?_, ?_⟩ ?_
    ⟨?_, ?_⟩ ?_
  · intro i h h1
    have h3 : i < 3 := h
    interval_cases i <;> exact ⟨rfl, rfl, fun x a b => rfl⟩
  · intro i h1 h2
    have h5 : i ≤ 2 := h2
    interval_cases i <;> decide
  any_goals decide
  · intro i h1 h2 x h3 h4
    show (x + 1 - (i : Int)) ^ 2 - (x - i) ^ 2 ≤ (x + 2 - i) ^ 2 - (x + 1 - i) ^ 2
    linarith
  · intro p hp x h3 h4
    simp only [exZ, List.mem_cons, List.not_mem_nil, or_false] at hp
    rcases hp with rfl | rfl
    · show 2 * (x + 1) - 2 * x ≤ 2 * (x + 2) - 2 * (x + 1)
      linarith
    · show 3 * (x + 1) ^ 2 - 3 * x ^ 2 ≤ 3 * (x + 2) ^ 2 - 3 * (x + 1) ^ 2
      linarith
  · intro i h1 h2 x h3 h4
    have h5 : i ≤ 2 := h2
    interval_cases i
    · have a : -2 ≤ x := h3
      have b : x ≤ 3 := h4
      interval_cases x <;> decide
    · have a : 0 ≤ x := h3
      have b : x ≤ 4 := h4
      interval_cases x <;> decide
  · intro p hp x h3 h4
    simp only [exZ, List.mem_cons, List.not_mem_nil, or_false] at hp
    rcases hp with rfl | rfl
    · have a : -4 ≤ x := h3
      have b : x ≤ -2 := h4
      interval_cases x <;> decide
    · have a : 0 ≤ x := h3
      have b : x ≤ 5 := h4
      interval_cases x <;> decide

/-! ### Overflow -/

/-- one variable which can only be 0, at the cost `2 ^ 30` -/
def heavyZ : Problem Int := ⟨1, fun _ => 0, fun _ => 0, fun _ _ => 2 ^ 30, []⟩

/-- `heavyZ` as input for the solver -/
def heavyMus (b : Int) (ov : Int → Int) : List (MuLimit (SInt b ov)) :=
  [⟨0, 0, fun _ => .error .callback⟩, ⟨0, 0, fun _ => .ok (.of _ _ (2 ^ 30))⟩]

/-- C61: it is not enough that the costs and the optimum are values of the type. The sum in `min_cost` counts every cost twice, so with 32 bits
and the cost `2 ^ 30` it overflows, and with the usual arithmetic modulo `2 ^ 32` the program returns `-2 ^ 30`. -/
theorem C61_overflow :
    (∀ x, -2 ^ 31 ≤ SInt.wrapAround (2 ^ 31 - 1) x ∧ SInt.wrapAround (2 ^ 31 - 1) x < 2 ^ 31 ∧ (SInt.wrapAround (2 ^ 31 - 1) x - x) % 2 ^ 32 = 0) ∧
    Represents (heavyZ.mapCosts (SInt.of (2 ^ 31 - 1) (SInt.wrapAround (2 ^ 31 - 1)))) (heavyMus _ _) [] ∧
    WellFormed heavyZ ∧ ConvexCosts heavyZ ∧ Capacity (2 ^ 31 - 1) heavyZ ∧ IsOptimum heavyZ (2 ^ 30) ∧
    Returns (fun fuel => ProblemSolver.run (2 ^ 31 - 1) fuel heavyZ.n (heavyMus (2 ^ 31 - 1) (SInt.wrapAround (2 ^ 31 - 1))) [])
      (some (SInt.of _ _ (-2 ^ 30))) := by
  have hc : ∀ μ ω, cost heavyZ μ ω = 2 ^ 30 := by
    intro μ ω
    have h0 : ∑ k : Fin heavyZ.pairs.length, heavyZ.pairs[k].B (ω k) = 0 := Finset.sum_eq_zero fun k _ => k.elim0
    rw [cost, h0]
    simp [heavyZ]
  refine ⟨?_, ⟨rfl, ?_, .nil⟩, ?_, ?_, ⟨?_, 0, ?_, ?_, ?_⟩, ⟨⟨fun _ => 0, fun _ => 0, ⟨by simp [heavyZ], by simp [heavyZ]⟩, hc _ _⟩, fun μ ω _ => (hc μ ω).ge⟩,
    returns_of_eval 20 (by decide +kernel) fun _ _ h => ProblemSolver.run_le h _ _ _⟩
  · intro x
    unfold SInt.wrapAround
    omega
  · intro i h h1
    have h3 : i < 2 := h
    interval_cases i
    exact ⟨rfl, rfl, fun x a b => rfl⟩
  · constructor <;> simp [heavyZ]
  · constructor
    · intro i _ _ x _ _
      simp [heavyZ]
    · simp [heavyZ]
  · constructor <;> simp [heavyZ]
  · constructor <;> simp [heavyZ]
  · constructor <;> simp [heavyZ]
  · simp [heavyZ, bitCeil]

end AHO.Props
