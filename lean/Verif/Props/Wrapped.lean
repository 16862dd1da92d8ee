import Verif.Model.Wrapped
import Verif.Model.Solver
import Verif.Proof.Mono
import Verif.Proof.Transform
import Mathlib.Algebra.Order.Ring.Rat
/-!
# Properties of `WrappedDouble`
-/

namespace AHO.Props
open Wrapped Spec

section
variable {K : Type} [Field K] [LinearOrder K] [IsStrictOrderedRing K]

/-- `eps = 1e-4` -/
instance dblTolerance : Tolerance (Dbl K) := ⟨Dbl.abs, .fin (1 / 10000)⟩

/-- not a NaN -/
def NotNan (a : Wrapped (Dbl K)) : Prop := a.value ≠ .nan

theorem eps_pos : (0 : K) < 1 / 10000 := by norm_num

omit [IsStrictOrderedRing K] in
theorem lt_iff (a b : Dbl K) : lt ⟨a⟩ ⟨b⟩ = true ↔ Dbl.lt (Dbl.add a (.fin (1 / 10000))) b := decide_eq_true_iff

omit [IsStrictOrderedRing K] in
theorem gt_iff (a b : Dbl K) : gt ⟨a⟩ ⟨b⟩ = true ↔ Dbl.lt b (Dbl.add a (.fin (-(1 / 10000)))) := decide_eq_true_iff

omit [IsStrictOrderedRing K] in
theorem le_iff (a b : Dbl K) : le ⟨a⟩ ⟨b⟩ = true ↔ Dbl.le (Dbl.add a (.fin (-(1 / 10000)))) b := decide_eq_true_iff

omit [IsStrictOrderedRing K] in
theorem ge_iff (a b : Dbl K) : ge ⟨a⟩ ⟨b⟩ = true ↔ Dbl.le b (Dbl.add a (.fin (1 / 10000))) := decide_eq_true_iff

omit [IsStrictOrderedRing K] in
theorem eq_iff (a b : Dbl K) : Wrapped.eq ⟨a⟩ ⟨b⟩ = true ↔
    ¬ Dbl.lt (.fin (1 / 10000)) (Dbl.abs (Dbl.add a (Dbl.neg b))) := by
  unfold Wrapped.eq
  rw [Bool.not_eq_true', decide_eq_false_iff_not]
  rfl

/-- C30. Of two numbers, infinities included, exactly one of `<`, `==`, `>` holds. -/
theorem C30_trichotomy (a b : Wrapped (Dbl K)) (ha : NotNan a) (hb : NotNan b) :
    (lt a b = true ∧ Wrapped.eq a b = false ∧ gt a b = false) ∨
    (lt a b = false ∧ Wrapped.eq a b = true ∧ gt a b = false) ∨
    (lt a b = false ∧ Wrapped.eq a b = false ∧ gt a b = true) := by
  have hp := eps_pos (K := K)
  obtain ⟨a⟩ := a
  obtain ⟨b⟩ := b
  simp only [← Bool.not_eq_true, lt_iff, eq_iff, gt_iff, not_not]
  cases a <;> cases b <;> simp only [NotNan, ne_eq, not_true_eq_false, reduceCtorEq, not_false_eq_true] at ha hb <;>
    simp only [Dbl.lt, Dbl.add, Dbl.neg, Dbl.abs, not_true_eq_false, not_false_eq_true, and_self, false_and, and_false, or_false, or_true,
      not_lt]
  rename_i x y
  rcases lt_trichotomy (x + 1 / 10000) y with h | h | h
  · left
    refine ⟨h, ?_, by linarith⟩
    rw [max_eq_right (by linarith)]; linarith
  · right; left
    refine ⟨by linarith, ?_, by linarith⟩
    rw [max_eq_right (by linarith)]; linarith
  · by_cases h' : y < x + -(1 / 10000)
    · right; right
      refine ⟨by linarith, ?_, h'⟩
      rw [max_eq_left (by linarith)]; linarith
    · right; left
      refine ⟨by linarith, ?_, by linarith⟩
      exact max_le (by linarith) (by linarith)

/-- C30. `<=` is the negation of `>`, `>=` that of `<`, and `a > b` means `b < a`. -/
theorem C30_le_ge (a b : Wrapped (Dbl K)) (ha : NotNan a) (hb : NotNan b) :
    le a b = !gt a b ∧ ge a b = !lt a b ∧ gt a b = lt b a ∧ ge a b = le b a := by
  obtain ⟨a⟩ := a
  obtain ⟨b⟩ := b
  have h2 : ∀ p q : Bool, (p = true ↔ ¬ q = true) → p = !q := by decide
  have h3 : ∀ p q : Bool, (p = true ↔ q = true) → p = q := by decide
  refine ⟨h2 _ _ ?_, h2 _ _ ?_, h3 _ _ ?_, h3 _ _ ?_⟩ <;>
    simp only [lt_iff, gt_iff, le_iff, ge_iff] <;>
    (cases a <;> cases b <;> simp only [NotNan, ne_eq, not_true_eq_false, reduceCtorEq, not_false_eq_true] at ha hb <;>
      simp only [Dbl.lt, Dbl.le, Dbl.add, not_true_eq_false, not_false_eq_true, not_lt])
  · constructor <;> intro h <;> linarith
  · constructor <;> intro h <;> linarith

/-- C30. `<` is irreflexive and transitive, `==` is reflexive and symmetric. -/
theorem C30_order (a b c : Wrapped (Dbl K)) (ha : NotNan a) (hb : NotNan b) (hc : NotNan c) :
    lt a a = false ∧ (lt a b = true → lt b c = true → lt a c = true) ∧ Wrapped.eq a a = true ∧ Wrapped.eq a b = Wrapped.eq b a := by
  have hp := eps_pos (K := K)
  obtain ⟨a⟩ := a
  obtain ⟨b⟩ := b
  obtain ⟨c⟩ := c
  have h3 : ∀ p q : Bool, (p = true ↔ q = true) → p = q := by decide
  refine ⟨?_, ?_, ?_, h3 _ _ ?_⟩
  · rw [← Bool.not_eq_true, lt_iff]
    cases a <;> simp only [Dbl.lt, Dbl.add, not_false_eq_true]
    linarith
  · simp only [lt_iff]
    cases a <;> cases b <;> cases c <;> simp only [Dbl.lt, Dbl.add, false_imp_iff, imp_true_iff, true_imp_iff]
    intro h1 h2
    linarith
  · rw [eq_iff]
    cases a <;> simp only [Dbl.lt, Dbl.add, Dbl.neg, Dbl.abs, not_false_eq_true]
    rw [add_neg_cancel, neg_zero, max_self]; linarith
  · simp only [eq_iff]
    cases a <;> cases b <;> simp only [Dbl.lt, Dbl.add, Dbl.neg, Dbl.abs]
    rename_i x y
    rw [show -(x + -y) = y + -x by ring, show -(y + -x) = x + -y by ring, max_comm]

end

/-- The hypothesis of these is met. -/
example : NotNan (⟨.fin 1⟩ : Wrapped (Dbl ℚ)) ∧ NotNan (⟨.pinf⟩ : Wrapped (Dbl ℚ)) := by simp [NotNan]

/-- C30. `==` is not transitive, so `<` is not a strict weak ordering: 0 is equal to 0.00009, this to 0.00018, but 0 is less than
0.00018. -/
theorem C30_not_transitive : ∃ a b c : Wrapped (Dbl ℚ), NotNan a ∧ NotNan b ∧ NotNan c ∧
    Wrapped.eq a b = true ∧ Wrapped.eq b c = true ∧ Wrapped.eq a c = false ∧ lt a c = true :=
  ⟨⟨.fin 0⟩, ⟨.fin (9 / 100000)⟩, ⟨.fin (18 / 100000)⟩, by simp [NotNan], by simp [NotNan], by simp [NotNan], by decide +kernel, by decide +kernel,
    by decide +kernel, by decide +kernel⟩

/-- C30. Addition does not respect `==`: the sum of two numbers equal to 0 is not equal to 0. -/
theorem C30_not_additive : ∃ a b : Wrapped (Dbl ℚ), Wrapped.eq a ⟨.fin 0⟩ = true ∧ Wrapped.eq b ⟨.fin 0⟩ = true ∧
    Wrapped.eq (a + b) ⟨.fin 0⟩ = false :=
  ⟨⟨.fin (9 / 100000)⟩, ⟨.fin (9 / 100000)⟩, by decide +kernel, by decide +kernel, by decide +kernel⟩

/-- C30. NaN is `==` to everything and neither `<`, `<=`, `>` nor `>=` to anything ("not consider NAN"). -/
theorem C30_nan (b : Wrapped (Dbl ℚ)) : Wrapped.eq ⟨.nan⟩ b = true ∧ lt ⟨.nan⟩ b = false ∧ le ⟨.nan⟩ b = false ∧
    gt ⟨.nan⟩ b = false ∧ ge ⟨.nan⟩ b = false := by
  obtain ⟨b⟩ := b
  refine ⟨?_, ?_, ?_, ?_, ?_⟩
  · rw [eq_iff]; cases b <;> simp [Dbl.lt, Dbl.add, Dbl.abs]
  all_goals rw [← Bool.not_eq_true]
  · rw [lt_iff]; cases b <;> simp [Dbl.lt, Dbl.add]
  · rw [le_iff]; cases b <;> simp [Dbl.le, Dbl.add]
  · rw [gt_iff]; cases b <;> simp [Dbl.lt, Dbl.add]
  · rw [ge_iff]; cases b <;> simp [Dbl.le, Dbl.add]

/-! ### The solver with `Data = WrappedDouble` -/

instance ratTolerance : Tolerance ℚ := ⟨fun x => max x (-x), 1 / 10000⟩

/-- equality of the representations, only to compare results; the model uses `operator==` -/
instance (priority := 10) : DecidableEq (Wrapped ℚ) := fun a b =>
  decidable_of_iff (a.value = b.value) ⟨fun h => by cases a; cases b; cases h; rfl, fun h => h ▸ rfl⟩

/-- one node with the cost `-x / 20000` on `[0, 7]` -/
def flatP : Problem ℚ := ⟨1, fun _ => 0, fun _ => 7, fun _ x => -x / 20000, []⟩

/-- `flatP` as input for the solver -/
def flatMus : List (MuLimit (Wrapped ℚ)) :=
  [⟨0, 0, fun _ => .error .callback⟩, ⟨0, 7, fun x => .ok ⟨-x / 20000⟩⟩]

/-- C36. With `Data = WrappedDouble` the result may differ from the optimum by more than `eps`, even without rounding: slopes
of size below `eps` count as zero, and they add up over the range. Here the optimum is -0.00035, the result -0.000175,
which is not even `==` to it. -/
theorem C36_wrapped_solver_inexact : WellFormed flatP ∧ ConvexCosts flatP ∧ IsOptimum flatP (-(7 / 20000)) ∧
    Returns (fun fuel => ProblemSolver.run (2 ^ 31 - 1) fuel 1 flatMus []) (some ⟨-(7 / 40000)⟩) ∧
    Wrapped.eq (⟨-(7 / 40000)⟩ : Wrapped ℚ) ⟨-(7 / 20000)⟩ = false := by
  have hc : ∀ μ ω, cost flatP μ ω = -(μ 1 : ℚ) / 20000 := by
    intro μ ω
    have h0 : ∑ k : Fin flatP.pairs.length, flatP.pairs[k].B (ω k) = 0 := Finset.sum_eq_zero fun k _ => k.elim0
    rw [cost, h0]
    simp [flatP]
  refine ⟨?_, ?_, ?_, returns_of_eval 40 (by decide +kernel) fun _ _ h => ProblemSolver.run_le h _ _ _, by decide +kernel⟩
  · constructor <;> simp [flatP]
  · constructor
    · intro i _ _ x _ _
      simp only [flatP]
      push_cast
      linarith
    · simp [flatP]
  · refine ⟨⟨fun _ => 7, fun _ => 0, ⟨by simp [flatP], by simp [flatP]⟩, ?_⟩, ?_⟩
    · rw [hc]; norm_num
    · intro μ ω h
      have h1 : μ 1 ≤ 7 := (h.1 1 le_rfl le_rfl).2
      have h2 : ((μ 1 : Int) : ℚ) ≤ 7 := by exact_mod_cast h1
      rw [hc]
      linarith

end AHO.Props
