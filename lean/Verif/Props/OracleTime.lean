import Verif.Proof.OracleCost
import Verif.Props.Oracle
/-!
# Running time of the brute-force oracle (C71)

`test/test.cpp:12` says `Complexity: O(U^n * m)`. `Oracle.bfSolveC` counts the evaluations of cost functions.
-/

namespace AHO.Props
open Spec
set_option linter.unusedSectionVars false

section
variable {D : Type} [Zero D] [Add D] [LT D] [DecidableLT D]
variable {imax : Int} {fuel n k : Nat} {Mus : List (MuLimit D)} {Omegas : List (OmegaLimit D)} {r : Option D}

/-- C71: the counter of `bfSolveC` does not change what is computed. -/
theorem C71_counters_only (imax : Int) (fuel n : Nat) (Mus : List (MuLimit D)) (Omegas : List (OmegaLimit D)) :
    (Oracle.bfSolveC imax fuel n Mus Omegas).map (·.2) = Oracle.bfSolve imax fuel n Mus Omegas :=
  Oracle.bfSolveC_er imax fuel n Mus Omegas

/-- C71, for every type of `Data` and all costs: if node `i` has `w i` values, there are at least `Σ_{j ≤ n} w 1 ⋯ w j` evaluations, and at most
`m w 1 ⋯ w n` more plus two for each step of the binary searches. If no assignment of values to the nodes violates a pair, the term `m w 1 ⋯ w n` is
attained: nothing is pruned. -/
theorem C71_evaluations {w : Nat → Nat} (hw : ∀ i m, Mus[i]? = some m → w i = (m.u + 1 - m.l).toNat) (ne : ∀ e ∈ Omegas, e.l ≤ e.u)
    (h : Oracle.bfSolveC imax fuel n Mus Omegas = .ok (k, r)) :
    (∑ j ∈ Finset.range n, ∏ i ∈ Finset.range (j + 1), w (i + 1)) ≤ k ∧
    k ≤ (∑ j ∈ Finset.range n, ∏ i ∈ Finset.range (j + 1), w (i + 1)) + Omegas.length * (∏ i ∈ Finset.range n, w (i + 1)) +
      2 * (Omegas.map fun e => (e.u - e.l).toNat.size).sum ∧
    ((∀ μ : Nat → Int, μ 0 = 0 → (∀ i m, 1 ≤ i → i ≤ n → Mus[i]? = some m → m.l ≤ μ i ∧ μ i ≤ m.u) →
        ∀ e ∈ Omegas, μ e.i - μ e.j ≤ e.u) →
      (∑ j ∈ Finset.range n, ∏ i ∈ Finset.range (j + 1), w (i + 1)) + Omegas.length * (∏ i ∈ Finset.range n, w (i + 1)) ≤ k) := by
  obtain ⟨h1, h2, h3⟩ := Oracle.bfSolveC_count hw ne h
  rw [Oracle.stems_eq, Oracle.boxes_eq] at h2 h3
  rw [Oracle.stems_eq] at h1
  have e : ∀ t, Oracle.boxes w 0 t = ∏ i ∈ Finset.range t, w (i + 1) := fun t => by
    rw [Oracle.boxes_eq]
    exact Finset.prod_congr rfl fun i _ => by congr 1; omega
  simp only [← Oracle.boxes_eq, e] at h1 h2 h3
  rw [mul_comm Omegas.length]
  exact ⟨h1, h2, fun hf => h3 fun v hv => hf v.get hv.1 hv.2⟩

/-- C71, the comment: with at most `U ≥ 2` values for every node there are at most `(m + 2) Uⁿ` evaluations outside `pre_processing`. -/
theorem C71_complexity {U : Nat} (hU : 2 ≤ U) (hw : ∀ i m, 1 ≤ i → Mus[i]? = some m → m.u - m.l < (U : Int)) (ne : ∀ e ∈ Omegas, e.l ≤ e.u)
    (h : Oracle.bfSolveC imax fuel n Mus Omegas = .ok (k, r)) :
    k ≤ (Omegas.length + 2) * U ^ n + 2 * (Omegas.map fun e => (e.u - e.l).toNat.size).sum := by
  obtain ⟨-, h2, -⟩ := Oracle.bfSolveC_count (w := fun i => match Mus[i]? with | some m => (m.u + 1 - m.l).toNat | none => 0)
    (fun i m hm => by simp only [hm]) ne h
  obtain ⟨h3, h4⟩ := Oracle.stems_le (n := n) hU (w := fun i => match Mus[i]? with | some m => (m.u + 1 - m.l).toNat | none => 0) (by
    intro i h1 _
    split
    · rename_i m hm
      have := hw i m h1 hm
      omega
    · omega) n 0 (by omega)
  have h5 := Nat.mul_le_mul_right Omegas.length h3
  nlinarith

end

section
variable {K : Type} [Field K] [LinearOrder K] [IsStrictOrderedRing K]
variable {P : Problem K} {Mus : List (MuLimit K)} {Omegas : List (OmegaLimit K)} {imax : Int}

/-- C71. Under the hypotheses of C31 the oracle returns, the optimum or nothing, after at most that many evaluations. -/
theorem C71_correct_in_time (rep : Represents P Mus Omegas) (wf : WellFormed P) (cv : ∀ p ∈ P.pairs, Valley p.B p.l p.u)
    (rp : Representable imax P) {R : Int} (wi : Within P R) (hR0 : 0 ≤ R) (hR : 2 * R + 1 ≤ imax)
    {U : Nat} (hU : 2 ≤ U) (wd : ∀ i, 1 ≤ i → i ≤ P.n → P.hi i - P.lo i < (U : Int)) :
    ∃ N, ∀ fuel, N ≤ fuel → ∃ k r, Oracle.bfSolveC imax fuel P.n Mus Omegas = .ok (k, r) ∧
      (∀ v, r = some v ↔ IsOptimum P v) ∧ (r = none ↔ ¬ Solvable P) ∧
      k ≤ (P.pairs.length + 2) * U ^ P.n + 2 * (P.pairs.map fun p => (p.u - p.l).toNat.size).sum := by
  obtain ⟨r, ⟨⟨N, hN⟩, -⟩, h2, h3⟩ := C31_oracle_correct rep wf cv rp wi hR0 hR
  refine ⟨N, fun fuel hf => ?_⟩
  obtain ⟨k, e⟩ := (Oracle.bfSolveC_er imax fuel P.n Mus Omegas).of_ok (hN fuel hf)
  refine ⟨k, r, e, h2, h3, ?_⟩
  have hmap : ∀ {es : List (OmegaLimit K)} {ps : List (Pair K)}, List.Forall₂ OmegaLimit.Is es ps →
      (es.map fun e => (e.u - e.l).toNat.size) = ps.map fun p => (p.u - p.l).toNat.size := by
    intro es ps h
    induction h with
    | nil => rfl
    | cons h1 _ ih => simp only [List.map_cons, ih, h1.l, h1.u]
  have hne : ∀ {es : List (OmegaLimit K)} {ps : List (Pair K)}, List.Forall₂ OmegaLimit.Is es ps → (∀ p ∈ ps, p.l ≤ p.u) →
      ∀ e ∈ es, e.l ≤ e.u := by
    intro es ps h
    induction h with
    | nil => intro _ e he; cases he
    | cons h1 _ ih =>
      intro hp e he
      rcases List.mem_cons.1 he with rfl | he
      · rw [h1.l, h1.u]; exact hp _ List.mem_cons_self
      · exact ih (fun p h => hp p (List.mem_cons_of_mem _ h)) e he
  have h4 := C71_complexity hU (fun i m h1 hm => by
    obtain ⟨hi, rfl⟩ := List.getElem?_eq_some_iff.1 hm
    have h5 := rep.mus i hi h1
    rw [h5.l, h5.u]
    exact wd i h1 (by have := rep.len; omega)) (hne rep.omegas wf.le) e
  rw [hmap rep.omegas, rep.omegas.length_eq] at h4
  exact h4

/-- The example of `Verif.Props.Example`. -/
example : Represents exP exMus exOmegas ∧ WellFormed exP ∧ (∀ p ∈ exP.pairs, Valley p.B p.l p.u) ∧ Representable (2 ^ 31 - 1) exP ∧
    Within exP (6 : Int) ∧ ∀ i, 1 ≤ i → i ≤ exP.n → exP.hi i - exP.lo i < ((9 : Nat) : Int) :=
  ⟨ex_rep, ex_wf, fun p hp => (ex_cv.pairs p hp).valley, ex_representable, ex_within, fun i h1 h2 => by
    have := ex_widths.nodes i h1 h2
    push_cast at this ⊢
    omega⟩

end

/-- The count for the example of `Verif.Props.Example`: 10 evaluations by the two binary searches, 6 + 30 for the nodes, 29 for the pairs
(15 of the 30 assignments violate the first pair, one of the others the second). -/
theorem C71_example_counter : Oracle.bfSolveC (2 ^ 31 - 1) 30 exP.n exMus exOmegas = .ok (75, some 9) := by decide +kernel

/-- `n` nodes, each of them with the single value 0, and one pair; all costs are zero -/
def singleP (n : Nat) : Problem ℚ where
  n := n
  lo _ := 0
  hi _ := 0
  F _ _ := 0
  pairs := [⟨1, 2, 0, 0, fun _ => 0⟩]

/-- C71. For `U = 1` the comment is not right: there is no constant `C` such that `C Uⁿ m` evaluations are enough. -/
theorem C71_single_values (C : Nat) : ∃ (n : Nat) (Mus : List (MuLimit ℚ)) (Omegas : List (OmegaLimit ℚ)), Mus.length = n + 1 ∧
    (∀ m ∈ Mus, m.u + 1 - m.l = 1) ∧ Omegas.length = 1 ∧
    ∃ N, ∀ fuel, N ≤ fuel → ∃ k r, Oracle.bfSolveC (2 ^ 31 - 1) fuel n Mus Omegas = .ok (k, r) ∧ C * (1 ^ n * Omegas.length) < k := by
  refine ⟨C + 2, List.replicate (C + 3) ⟨0, 0, fun _ => .ok 0⟩, [⟨⟨0, 0, fun _ => .ok 0⟩, 1, 2⟩], by simp, ?_, rfl, ?_⟩
  · intro m hm
    obtain ⟨-, rfl⟩ := List.mem_replicate.1 hm
    rfl
  have rep : Represents (singleP (C + 2)) (List.replicate (C + 3) ⟨0, 0, fun _ => .ok 0⟩) [⟨⟨0, 0, fun _ => .ok 0⟩, 1, 2⟩] := by
    refine ⟨by simp [singleP], fun i hi h1 => ?_, .cons ⟨rfl, rfl, rfl, rfl, fun _ _ _ => rfl⟩ .nil⟩
    rw [List.getElem_replicate]
    exact ⟨rfl, rfl, fun _ _ _ => rfl⟩
  obtain ⟨r, -, ⟨⟨N, hN⟩, -⟩⟩ := oracle_outcome (imax := 2 ^ 31 - 1) (R := 0) rep (by constructor <;> simp [singleP])
    (by simp only [singleP, List.mem_singleton, forall_eq]; intro x y; intros; simp)
    (by constructor <;> simp [singleP]) (by constructor <;> simp [singleP]) le_rfl (by norm_num)
  refine ⟨N, fun fuel hf => ?_⟩
  obtain ⟨k, e⟩ := (Oracle.bfSolveC_er _ _ _ _ _).of_ok (hN fuel hf)
  refine ⟨k, r, e, ?_⟩
  obtain ⟨h1, -⟩ := C71_evaluations (w := fun _ => 1) (fun i m hm => by
    obtain ⟨-, rfl⟩ := List.mem_replicate.1 (List.mem_of_getElem? hm)
    rfl) (by simp) e
  simp [singleP] at h1 ⊢
  omega

/-- two nodes with two values each and a pair which no assignment violates: `2 + 4` evaluations for the nodes, `4 · 1` for the pair, and none by the
binary search, the range of which is a single number -/
example : Oracle.bfSolveC (2 ^ 31 - 1) 30 2 [⟨0, 0, fun _ => .ok 0⟩, ⟨0, 1, fun x => .ok (x : ℚ)⟩, ⟨0, 1, fun x => .ok (x : ℚ)⟩]
      [⟨⟨5, 5, fun _ => .ok 1⟩, 1, 2⟩] = .ok (10, some 1) ∧
    ∀ μ : Nat → Int, μ 0 = 0 → (∀ i, 1 ≤ i → i ≤ 2 → 0 ≤ μ i ∧ μ i ≤ 1) → μ 1 - μ 2 ≤ 5 :=
  ⟨by decide +kernel, fun μ _ h => by have := h 1 le_rfl (by decide); have := h 2 (by decide) le_rfl; omega⟩

/-- `C71_evaluations` and `C71_complexity` for the example of `Verif.Props.Example`: at most 4 * 6 ^ 2 evaluations and those of the binary searches. -/
example : (75 : Nat) ≤ (exOmegas.length + 2) * 6 ^ exP.n + 2 * (exOmegas.map fun e => (e.u - e.l).toNat.size).sum := by
  refine C71_complexity (Mus := exMus) (by decide) (fun i m h1 h2 => ?_) (by decide +kernel) C71_example_counter
  match i, h1, h2 with
  | 1, _, h2 => cases h2; decide
  | 2, _, h2 => cases h2; decide

end AHO.Props
