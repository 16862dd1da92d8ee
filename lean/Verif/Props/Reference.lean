import Verif.Proof.SafeReference
import Verif.Proof.ReferenceAssert
import Verif.Proof.SimpleMono
import Verif.Proof.Oracle
import Verif.Props.Rounding
import Verif.Props.MemorySafety
/-!
# C68: memory and assertions of the reference programs of the tests

What C64 and C66 say about the solver, for `bf_solve` (`test/test.cpp:13-41`) and `simple_solve` (`test/test.cpp:43-50`, `test/SimpleSolver.cpp`,
`test/CostScaling.cpp`). The second one contains two assertions, `assert(excess[u] > 0)` (`test/CostScaling.cpp:54,64`), and one of them can fail: if the
costs are not convex, and, because of rounding, also if they are linear.
-/

namespace AHO.Props
open Spec Format

section
set_option linter.unusedSectionVars false
variable {D : Type} [Zero D] [One D] [Add D] [Sub D] [Neg D] [Mul D] [Div D] [IntCast D]
  [LT D] [LE D] [DecidableLT D] [DecidableLE D] [BEq D] {n : Nat} {Mus : List (MuLimit D)} {Omegas : List (OmegaLimit D)}

/-- C68. `bf_solve` reads and writes inside of its arrays, and calls the costs inside of their ranges; and as it contains no assertions, it
returns, or goes on for ever, or an `int` overflows. Nothing is assumed about the arithmetic of the costs, nor about their values. -/
theorem C68_bf_outcomes (hl : n < Mus.length)
    (hm : ∀ i m, 1 ≤ i → i ≤ n → Mus[i]? = some m → ∀ x, (m.l ≤ x → x ≤ m.u → ∃ v, m.fn x = .ok v) ∧ m.fn x ≠ .error .assertFail)
    (ho : ∀ o ∈ Omegas, o.i ≤ n ∧ o.j ≤ n ∧ o.l ≤ o.u ∧ ∀ x, (o.l ≤ x → x ≤ o.u → ∃ v, o.fn x = .ok v) ∧ o.fn x ≠ .error .assertFail)
    (imax : Int) (fuel : Nat) (e : Err) (he : Oracle.bfSolve imax fuel n Mus Omegas = .error e) : e = .fuel ∨ e = .overflow := by
  have h := Oracle.bfSolve_safe imax fuel hl (fun i m h1 h2 h3 x a b => (by
    obtain ⟨v, hv⟩ := (hm i m h1 h2 h3 x).1 a b
    rw [hv]; trivial)) fun o h => ⟨(ho o h).1, (ho o h).2.1, (ho o h).2.2.1, fun x a b => (by
      obtain ⟨v, hv⟩ := ((ho o h).2.2.2 x).1 a b
      rw [hv]; trivial)⟩
  have h' := Oracle.bfSolve_nf imax fuel (fun i m h1 h2 h3 x => (hm i m h1 h2 h3 x).2) (fun o h x => ((ho o h).2.2.2 x).2)
  rw [he] at h h'
  rcases h with h | h | h
  · exact .inl h
  · exact .inr h
  · exact absurd (congrArg _ h) h'

/-- C68. `simple_solve` reads and writes inside of its arrays, and calls the costs inside of their ranges: it returns, or goes on for ever, or an
`int` overflows, or an assertion fails. Nothing is assumed about the arithmetic of the costs, nor about their values; ranges may be empty. -/
theorem C68_simple_memory_safe (hl : n < Mus.length)
    (hm : ∀ i m, 1 ≤ i → i ≤ n → Mus[i]? = some m → ∀ x, m.l ≤ x → x ≤ m.u → ∃ v, m.fn x = .ok v)
    (ho : ∀ o ∈ Omegas, o.i ≤ n ∧ o.j ≤ n ∧ ∀ x, o.l ≤ x → x ≤ o.u → ∃ v, o.fn x = .ok v)
    (imax : Int) (fuel : Nat) (e : Err) (he : SimpleSolver.solve imax fuel n Mus Omegas = .error e) : e = .fuel ∨ e = .overflow ∨ e = .assertFail := by
  have h := SimpleSolver.solve_safe imax fuel hl (fun i m h1 h2 h3 x a b => (by
    obtain ⟨v, hv⟩ := hm i m h1 h2 h3 x a b
    rw [hv]; trivial)) fun o h => ⟨(ho o h).1, (ho o h).2.1, fun x a b => (by
      obtain ⟨v, hv⟩ := (ho o h).2.2 x a b
      rw [hv]; trivial)⟩
  rw [he] at h
  exact h

end

/-- C68. If the values of the costs are convex, with slopes up to the constant `M = 10 ^ 9` of the program (`test/SimpleSolver.hpp:7`), no assertion of
`simple_solve` fails, however the results of the operations are rounded, as long as there are no infinities. -/
theorem C68_simple_no_failed_assertion {K : Type} [Field K] [LinearOrder K] [IsStrictOrderedRing K] {ρ : Rounding K} (hM : ρ.rnd (10 ^ 9) = 10 ^ 9)
    {n : Nat} {Mus : List (MuLimit (Rd ρ))} {Omegas : List (OmegaLimit (Rd ρ))}
    (hm : ∀ i m, 1 ≤ i → i ≤ n → Mus[i]? = some m → ∃ F : Int → Rd ρ, (∀ x, m.l ≤ x → x ≤ m.u → m.fn x = .ok (F x)) ∧
      (∀ x, m.fn x ≠ .error .assertFail) ∧ Convex (fun x => (F x).val) m.l m.u ∧ ∀ x, m.l ≤ x → x + 1 ≤ m.u → |(F (x + 1)).val - (F x).val| ≤ 10 ^ 9)
    (ho : ∀ o ∈ Omegas, o.i ≤ n ∧ o.j ≤ n ∧ o.i ≠ o.j ∧ ∃ F : Int → Rd ρ, (∀ x, o.l ≤ x → x ≤ o.u → o.fn x = .ok (F x)) ∧
      (∀ x, o.fn x ≠ .error .assertFail) ∧ Convex (fun x => (F x).val) o.l o.u ∧ ∀ x, o.l ≤ x → x + 1 ≤ o.u → |(F (x + 1)).val - (F x).val| ≤ 10 ^ 9)
    (imax : Int) (fuel : Nat) : SimpleSolver.solve imax fuel n Mus Omegas ≠ .error .assertFail := by
  have hb : (SimpleSolver.bigM : K) = 10 ^ 9 := by unfold SimpleSolver.bigM; norm_num
  refine SimpleSolver.solve_nf (by rw [hb, hM]) imax fuel (fun i m h1 h2 h3 => ?_) fun o h => ?_
  · obtain ⟨F, a, b, c, d⟩ := hm i m h1 h2 h3
    exact ⟨F, ⟨a, c, by rwa [hb]⟩, b⟩
  · obtain ⟨h1, h2, h3, F, a, b, c, d⟩ := ho o h
    exact ⟨h1, h2, h3, F, ⟨a, c, by rwa [hb]⟩, b⟩

/-! ## The rounding of `double` -/

theorem round_mono {f : Format} (hp : 2 ≤ f.p) {x y : ℚ} (h : x ≤ y) : f.round x ≤ f.round y := by
  by_contra hc
  have hx := round_isRounded hp x
  have hy := round_isRounded hp y
  have h1 := hx.nearest _ hy.float
  have h2 := hy.nearest _ hx.float
  have h3 := sq_le_sq.2 h1
  have h4 := sq_le_sq.2 h2
  rcases h.eq_or_lt with e | e
  · exact hc (by rw [e])
  · nlinarith

theorem round_float {f : Format} {y : ℚ} (h : IsFloat f y) : f.round y = y := by
  obtain ⟨k, j, rfl, h1, h2⟩ := h
  exact round_exact h2 (by exact_mod_cast h1)

/-- The rounding of a format without its largest number is a rounding. -/
def rounding (f : Format) (hp : 2 ≤ f.p) : Rounding ℚ where
  rnd := f.round
  mono _ _ h := round_mono hp h
  idem x := round_float (round_isRounded hp x).float
  zero := if_pos rfl
  neg x := by
    obtain ⟨k, j, h, h1, h2⟩ := (round_isRounded hp x).float
    exact round_float ⟨-k, j, by rw [h]; push_cast; ring, by rwa [abs_neg], h2⟩

/-- `double`, without its largest number -/
def doubleRounding : Rounding ℚ := rounding binary64 (by decide)

/-- The rounding of `double` meets the hypotheses of C68, with a cost whose values `0.1 |x|` are rounded and not convex outside of `[-1, 1]`. -/
example : doubleRounding.rnd (10 ^ 9) = 10 ^ 9 ∧ ∀ imax fuel, SimpleSolver.solve imax fuel 2
    [⟨0, 0, fun _ => .error .callback⟩, ⟨-1, 1, fun x => .ok (Rd.of doubleRounding (|(x : ℚ)| / 10))⟩, ⟨0, 1, fun x => .ok (Rd.of doubleRounding (x / 3))⟩]
    [⟨⟨-1, 1, fun x => .ok (Rd.of doubleRounding (x * 7 / 10))⟩, 2, 1⟩] ≠ .error .assertFail := by
  have hM : doubleRounding.rnd (10 ^ 9) = 10 ^ 9 := by decide +kernel
  refine ⟨hM, C68_simple_no_failed_assertion hM (fun i m h1 h2 h3 => ?_) fun o h => ?_⟩
  · match i, h1, h3 with
    | 1, _, h3 =>
      cases h3
      refine ⟨_, fun x _ _ => rfl, fun x h => (by cases h), fun x a b => ?_, fun x a b => ?_⟩
      · obtain rfl : x = -1 := by dsimp only at a b; omega
        decide +kernel
      · have : x = -1 ∨ x = 0 := by dsimp only at a b; omega
        rcases this with rfl | rfl <;> decide +kernel
    | 2, _, h3 =>
      cases h3
      refine ⟨_, fun x _ _ => rfl, fun x h => (by cases h), fun x a b => ?_, fun x a b => ?_⟩
      · dsimp only at a b; omega
      · obtain rfl : x = 0 := by dsimp only at a b; omega
        decide +kernel
  · cases List.mem_singleton.1 h
    refine ⟨by decide, by decide, by decide, _, fun x _ _ => rfl, fun x h => (by cases h), fun x a b => ?_, fun x a b => ?_⟩
    · obtain rfl : x = -1 := by dsimp only at a b; omega
      decide +kernel
    · have : x = -1 ∨ x = 0 := by dsimp only at a b; omega
      rcases this with rfl | rfl <;> decide +kernel

/-! ## The assertion can fail -/

/-- Costs 2, 1 on `[-3, -2]` and 0, 0, 3, 1 on `[-3, 0]`: the second one is not convex. -/
def notConvexMus : List (MuLimit ℚ) :=
  [⟨0, 0, fun _ => .error .callback⟩, ⟨-3, -2, fun x => .ok (-1 - x)⟩, ⟨-3, 0, fun x => .ok (if x ≤ -2 then 0 else if x = -1 then 3 else 1)⟩]

/-- C68. For costs which are not convex an assertion of `simple_solve` fails, even if the arithmetic is exact. -/
theorem C68_simple_assertion_not_convex : ∃ N, ∀ fuel, N ≤ fuel → SimpleSolver.solve (2 ^ 31 - 1) fuel 2 notConvexMus [] = .error .assertFail := by
  refine ⟨60, fun fuel hf => ?_⟩
  have h : SimpleSolver.solve (2 ^ 31 - 1) 60 2 notConvexMus [] = .error .assertFail := by decide +kernel
  rcases SimpleSolver.solve_le (imax := 2 ^ 31 - 1) hf 2 notConvexMus [] with h' | h'
  · rw [h] at h'; cases h'
  · rw [← h', h]

/-- `0.6 * mu` on `[-1, -1]` and `0.7 * mu` on `[4, 8]`, with `double`: the products are rounded. -/
def slopeMus : List (MuLimit (Flt binary64)) :=
  [⟨0, 0, fun _ => .error .callback⟩, ⟨-1, -1, fun x => .ok (Flt.ofRat _ (binary64.round (6 / 10)) * (x : Flt binary64))⟩,
    ⟨4, 8, fun x => .ok (Flt.ofRat _ (binary64.round (7 / 10)) * (x : Flt binary64))⟩]

/-- C68. With `double` the assertion fails already for the linear costs `0.6 * mu` and `0.7 * mu`, on which `bf_solve`
and the solver both return the optimum, the rounded difference of the numbers nearest to 2.8 and 0.6. -/
theorem C68_simple_assertion_linear :
    (∃ N, ∀ fuel, N ≤ fuel → SimpleSolver.solve (2 ^ 31 - 1) fuel 2 slopeMus [] = .error .assertFail) ∧
      Returns (fun fuel => Oracle.bfSolve (2 ^ 31 - 1) fuel 2 slopeMus []) (some (Flt.ofRat _ (binary64.round (binary64.round (28 / 10) - binary64.round (6 / 10))))) ∧
      Returns (fun fuel => ProblemSolver.run (2 ^ 31 - 1) fuel 2 slopeMus []) (some (Flt.ofRat _ (binary64.round (binary64.round (28 / 10) - binary64.round (6 / 10))))) := by
  refine ⟨⟨60, fun fuel hf => ?_⟩, ?_, ?_⟩
  · have h : SimpleSolver.solve (2 ^ 31 - 1) 60 2 slopeMus [] = .error .assertFail := by decide +kernel
    rcases SimpleSolver.solve_le (imax := 2 ^ 31 - 1) hf 2 slopeMus [] with h' | h'
    · rw [h] at h'; cases h'
    · rw [← h', h]
  · exact returns_of_eval 60 (by decide +kernel) fun _ _ h => Oracle.bfSolve_le h _ _ _
  · exact returns_of_eval 200 (by decide +kernel) fun _ _ h => ProblemSolver.run_le h _ _ _

/-- These limits, with the costs called only on their ranges, meet the hypotheses of the first two theorems of C68. -/
example (imax : Int) (fuel : Nat) (e : Err) :
    (Oracle.bfSolve imax fuel 2 (slopeMus.map fun m => { m with fn := guardFn m.l m.u m.fn }) [⟨⟨0, 2, guardFn 0 2 fun _ => .ok ⟨.nan⟩⟩, 1, 2⟩] = .error e →
      e = .fuel ∨ e = .overflow) ∧
    (SimpleSolver.solve imax fuel 2 (slopeMus.map fun m => { m with fn := guardFn m.l m.u m.fn }) [⟨⟨0, 2, guardFn 0 2 fun _ => .ok ⟨.nan⟩⟩, 1, 2⟩] = .error e →
      e = .fuel ∨ e = .overflow ∨ e = .assertFail) := by
  have hm : ∀ i m, 1 ≤ i → i ≤ 2 → (slopeMus.map fun m => { m with fn := guardFn m.l m.u m.fn })[i]? = some m →
      ∀ x, (m.l ≤ x → x ≤ m.u → ∃ v, m.fn x = .ok v) ∧ m.fn x ≠ .error .assertFail := by
    intro i m h1 _ h2 x
    match i, h1, h2 with
    | 1, _, h2 => cases h2; exact ⟨fun a b => ⟨_, if_pos ⟨a, b⟩⟩, by dsimp only [guardFn]; split <;> exact fun h => by cases h⟩
    | 2, _, h2 => cases h2; exact ⟨fun a b => ⟨_, if_pos ⟨a, b⟩⟩, by dsimp only [guardFn]; split <;> exact fun h => by cases h⟩
  have ho : ∀ o ∈ [(⟨⟨0, 2, guardFn 0 2 fun _ => .ok ⟨.nan⟩⟩, 1, 2⟩ : OmegaLimit (Flt binary64))], o.i ≤ 2 ∧ o.j ≤ 2 ∧ o.l ≤ o.u ∧
      ∀ x, (o.l ≤ x → x ≤ o.u → ∃ v, o.fn x = .ok v) ∧ o.fn x ≠ .error .assertFail := by
    intro o h
    cases List.mem_singleton.1 h
    exact ⟨by decide, by decide, by decide, fun x => ⟨fun a b => ⟨_, if_pos ⟨a, b⟩⟩, by dsimp only [guardFn]; split <;> exact fun h => by cases h⟩⟩
  exact ⟨C68_bf_outcomes (by decide) hm ho imax fuel e, C68_simple_memory_safe (by decide) (fun i m h1 h2 h3 x => (hm i m h1 h2 h3 x).1)
    (fun o h => ⟨(ho o h).1, (ho o h).2.1, fun x => ((ho o h).2.2.2 x).1⟩) imax fuel e⟩

end AHO.Props
