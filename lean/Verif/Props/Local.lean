import Verif.Proof.Local
import Verif.Props.Relations
/-!
# Finding an optimal assignment, and testing one
-/

namespace AHO.Props
open Spec

section
variable {K : Type} [Field K] [LinearOrder K] [IsStrictOrderedRing K]
variable {P Q : Problem K} {Mus Mus₁ : List (MuLimit K)} {Omegas Omegas₁ : List (OmegaLimit K)} {imax : Int}

/-! ### C80: an optimal assignment can be found with the solver -/

/-- C80. Let `r x` be the result when the variable of node `i` is given the value `x`. The result of the problem is the least of them, and `r` is a
convex function: the values `x` for which there is a solution form an interval, and between two of them `r` lies below the chord. -/
theorem C80_fix_one (wf : WellFormed P) (cv : ConvexCosts P) (hn : P.n + 1 < 2 ^ 64) (cap : Capacity imax P) {i : Nat} (h1 : 1 ≤ i) (h2 : i ≤ P.n)
    (rep : Represents P Mus Omegas) :
    ∃ (r : Int → Option K) (r₀ : Option K),
      (∀ x, P.lo i ≤ x → x ≤ P.hi i → ∀ Mus' Omegas', Represents (P.fix i x) Mus' Omegas' →
        Returns (fun fuel => ProblemSolver.run imax fuel P.n Mus' Omegas') (r x)) ∧
      Returns (fun fuel => ProblemSolver.run imax fuel P.n Mus Omegas) r₀ ∧
      (∀ v, r₀ = some v ↔ IsLeast {w | ∃ x, P.lo i ≤ x ∧ x ≤ P.hi i ∧ r x = some w} v) ∧
      (∀ a x b va vb, P.lo i ≤ a → a < x → x < b → b ≤ P.hi i → r a = some va → r b = some vb →
        ∃ v, r x = some v ∧ ((b - a : Int) : K) * v ≤ ((b - x : Int) : K) * va + ((x - a : Int) : K) * vb) := by
  have hx : ∀ x, ∃ rx : Option K, P.lo i ≤ x → x ≤ P.hi i → (∀ Mus' Omegas', Represents (P.fix i x) Mus' Omegas' →
      Returns (fun fuel => ProblemSolver.run imax fuel P.n Mus' Omegas') rx) ∧ Outcome (ProblemSolver.problemCosts (P.fix i x)) rx := by
    intro x
    by_cases hx : P.lo i ≤ x ∧ x ≤ P.hi i
    · have sh := fix_shrinks (P := P) hx.1 hx.2
      obtain ⟨M, O, hr⟩ := exists_rep (P.fix i x)
      obtain ⟨rx, a, -⟩ := ProblemSolver.run_capacity (imax := imax) hr (wf_fix wf) (cv_shrinks sh cv) hn (cap_shrinks sh wf cap)
      refine ⟨rx, fun _ _ => ⟨fun M' O' hr' => ?_, a⟩⟩
      obtain ⟨rx', a', b'⟩ := ProblemSolver.run_capacity hr' (wf_fix wf) (cv_shrinks sh cv) hn (cap_shrinks sh wf cap)
      rw [outcome_unique a' a] at b'
      exact b'
    · exact ⟨none, fun a b => absurd ⟨a, b⟩ hx⟩
  choose r hr using hx
  obtain ⟨r₀, a₀, b₀⟩ := ProblemSolver.run_capacity rep wf cv hn cap
  refine ⟨r, r₀, fun x hl hu => (hr x hl hu).1, b₀, fun v => ?_, ?_⟩
  · rw [outcome_some a₀]
    constructor
    · rintro ⟨⟨μ, ω, f, e⟩, hv⟩
      have hf := f.1 i h1 h2
      refine ⟨⟨μ i, hf.1, hf.2, ?_⟩, ?_⟩
      · rw [outcome_some (hr _ hf.1 hf.2).2]
        refine ⟨⟨μ, ω, (feasible_fix h1 h2 hf.1 hf.2).2 ⟨f, rfl⟩, e⟩, fun μ' ω' f' => hv μ' ω' ?_⟩
        exact ((feasible_fix h1 h2 hf.1 hf.2).1 f').1
      · rintro w ⟨x, hl, hu, e'⟩
        rw [outcome_some (hr _ hl hu).2] at e'
        obtain ⟨⟨μ', ω', f', rfl⟩, -⟩ := e'
        exact hv μ' ω' ((feasible_fix h1 h2 hl hu).1 f').1
    · rintro ⟨⟨x, hl, hu, e⟩, hv⟩
      rw [outcome_some (hr _ hl hu).2] at e
      obtain ⟨⟨μ, ω, f, e⟩, -⟩ := e
      refine ⟨⟨μ, ω, ((feasible_fix h1 h2 hl hu).1 f).1, e⟩, fun μ' ω' f' => ?_⟩
      have hf := f'.1 i h1 h2
      have ff := (feasible_fix h1 h2 hf.1 hf.2).2 ⟨f', rfl⟩
      cases e' : r (μ' i) with
      | none => exact absurd ⟨_, _, ff⟩ ((outcome_none (hr _ hf.1 hf.2).2).1 e')
      | some w =>
        have := ((outcome_some (hr _ hf.1 hf.2).2 w).1 e').2 _ _ ff
        exact (hv ⟨_, hf.1, hf.2, e'⟩).trans this
  · intro a x b va vb ha hax hxb hb ea eb
    rw [outcome_some (hr _ ha (by omega)).2] at ea
    rw [outcome_some (hr _ (by omega) hb).2] at eb
    obtain ⟨μ, ω, f, h⟩ := fix_convex wf cv h1 h2 ha hax hxb hb ea eb
    cases e : r x with
    | none => exact absurd ⟨_, _, f⟩ ((outcome_none (hr x (by omega) (by omega)).2).1 e)
    | some v =>
      have hv := ((outcome_some (hr x (by omega) (by omega)).2 v).1 e).2 _ _ f
      refine ⟨v, rfl, le_trans (mul_le_mul_of_nonneg_left hv ?_) h⟩
      exact_mod_cast (show 0 ≤ b - a by omega)

/-- The hypotheses are met by the first variable of the example. -/
example := C80_fix_one ex_wf ex_cv ex_n ex_capacity (i := 1) (by decide) (by decide) ex_rep

/-- C80. When all variables have been given values one after the other, and the result of the last call is `v`, these values are an assignment which costs `v`. -/
theorem C80_fix_all (wf : WellFormed P) (cv : ConvexCosts P) (hn : P.n + 1 < 2 ^ 64) (cap : Capacity imax P) {μ : Nat → Int}
    (hμ : ∀ i, 1 ≤ i → i ≤ P.n → P.lo i ≤ μ i ∧ μ i ≤ P.hi i) (rep : Represents (P.fixAll μ P.n) Mus Omegas) {v : K}
    (h : Returns (fun fuel => ProblemSolver.run imax fuel P.n Mus Omegas) (some v)) : ∃ ω, Feasible P μ ω ∧ cost P μ ω = v := by
  obtain ⟨sh, wf', fe⟩ := fixAll_facts wf hμ
  obtain ⟨r, a, b⟩ := ProblemSolver.run_capacity rep wf' (cv_shrinks sh cv) (by rw [sh.n]; exact hn) (cap_shrinks sh wf cap)
  rw [sh.n] at b
  obtain rfl := h.unique b
  obtain ⟨⟨μ', ω, f, e⟩, -⟩ := (outcome_some a v).1 rfl
  have eq := fe f
  have f' := shrinks_feasible sh f
  refine ⟨ω, ?_, ?_⟩
  · exact feasible_congr wf (fun i h1 h2 => eq i h1 h2) f'
  · rw [← e, shrinks_cost sh]
    unfold cost
    congr 1
    exact Finset.sum_congr rfl fun i hi => by rw [eq i (Finset.mem_Icc.1 hi).1 (Finset.mem_Icc.1 hi).2]

/-! ### C81: a local test of optimality, and limits which do not bind -/

/-- C81. An assignment which satisfies the constraints costs as much as the result if and only if it cannot be improved by adding 1 to some of the `μ`, or by
subtracting 1 from some of them (with any values of the `ω`). -/
theorem C81_local_test (wf : WellFormed P) (cv : ConvexCosts P) (hn : P.n + 1 < 2 ^ 64) (cap : Capacity imax P) (rep : Represents P Mus Omegas)
    {μ ω : Nat → Int} (f : Feasible P μ ω) :
    Returns (fun fuel => ProblemSolver.run imax fuel P.n Mus Omegas) (some (cost P μ ω)) ↔
      ∀ (S : Finset Nat) (d : Int) (ω' : Nat → Int), d = 1 ∨ d = -1 → Feasible P (move μ S d) ω' → cost P μ ω ≤ cost P (move μ S d) ω' := by
  obtain ⟨r, a, b⟩ := ProblemSolver.run_capacity rep wf cv hn cap
  constructor
  · intro h S d ω' _ f'
    have e := b.unique h
    exact ((outcome_some a _).1 e).2 _ _ f'
  · intro h
    have : IsOptimum P (cost P μ ω) := by
      refine ⟨⟨μ, ω, f, rfl⟩, fun μ' ω' f' => ?_⟩
      by_contra hlt
      obtain ⟨S, d, ω'', hd, f'', h''⟩ := descent wf cv f f' (not_le.1 hlt)
      exact absurd (h S d ω'' hd f'') (not_le.2 h'')
    rw [← (outcome_some a _).2 this]
    exact b

/-- C81. If some optimal assignment is not at an end of a range which is made wider, the result stays the same. -/
theorem C81_limits_do_not_bind (sh : Q.Shrinks P) (wf : WellFormed P) (wf' : WellFormed Q) (cv : ConvexCosts Q) (hn : P.n + 1 < 2 ^ 64) (cap : Capacity imax Q)
    (rep : Represents P Mus Omegas) (rep' : Represents Q Mus₁ Omegas₁) {μ ω : Nat → Int} (f : Feasible P μ ω) (ne : NotAtEnds P Q μ ω)
    (h : Returns (fun fuel => ProblemSolver.run imax fuel P.n Mus Omegas) (some (cost P μ ω))) :
    Returns (fun fuel => ProblemSolver.run imax fuel P.n Mus₁ Omegas₁) (some (cost P μ ω)) := by
  obtain ⟨r, a, b⟩ := ProblemSolver.run_capacity rep wf (cv_shrinks sh cv) hn (cap_shrinks sh wf' cap)
  obtain ⟨r', a', b'⟩ := ProblemSolver.run_capacity rep' wf' cv (by rw [← sh.n]; exact hn) cap
  have o := (outcome_some a _).1 (b.unique h)
  rw [← sh.n, (outcome_some a' _).2 (widen sh wf cv f o ne)] at b'
  exact b'

end

/-- the arguments for `exP` with the values 0 and 2 of the variables -/
def fixMus : List (MuLimit ℚ) :=
  [⟨7, 3, fun _ => .error .callback⟩, ⟨0, 0, fun x => .ok (((x : ℚ) - 1) ^ 2)⟩, ⟨2, 2, fun x => .ok (((x : ℚ) - 2) ^ 2)⟩]

/-- C80: `μ = (0, 2)` is found in this way, the last call of the solver returns the optimum 9 of `exP`. -/
example : Represents (exP.fixAll (fun i => if i = 1 then 0 else 2) exP.n) fixMus exOmegas ∧
    (∀ i, 1 ≤ i → i ≤ exP.n → exP.lo i ≤ (if i = 1 then 0 else 2) ∧ (if i = 1 then 0 else 2) ≤ exP.hi i) ∧
    Returns (fun fuel => ProblemSolver.run (2 ^ 31 - 1) fuel exP.n fixMus exOmegas) (some 9) ∧
    Returns (fun fuel => ProblemSolver.run (2 ^ 31 - 1) fuel exP.n exMus exOmegas) (some 9) := by
  refine ⟨⟨rfl, ?_, ex_rep.omegas⟩, fun i h1 h2 => ?_, returns_of_eval 60 (by decide +kernel) fun _ _ h => ProblemSolver.run_le h _ _ _,
    returns_of_eval 60 (by decide +kernel) fun _ _ h => ProblemSolver.run_le h _ _ _⟩
  · intro i h h1
    have h3 : i < 3 := h
    interval_cases i <;> exact ⟨rfl, rfl, fun _ _ _ => rfl⟩
  · have h3 : i ≤ 2 := h2
    interval_cases i <;> simp [exP]

/-- `exP` with wider ranges of the nodes -/
def widerP : Problem ℚ := { exP with lo := fun _ => -100, hi := fun _ => 100 }

/-- C81: the optimal assignment `μ = (0, 2)`, `ω = (-2, 2)` of `exP` is inside of the ranges of the nodes. `ω₁` is at the end of its range, which must not be made wider. -/
example : Feasible exP (fun i => if i = 1 then 0 else 2) (fun k => if k = 0 then -2 else 2) ∧
    cost exP (fun i => if i = 1 then 0 else 2) (fun k => if k = 0 then -2 else 2) = 9 ∧ widerP.Shrinks exP ∧ WellFormed widerP ∧ ConvexCosts widerP ∧
    Capacity (2 ^ 31 - 1) widerP ∧ NotAtEnds exP widerP (fun i => if i = 1 then 0 else 2) (fun k => if k = 0 then -2 else 2) := by
  refine ⟨⟨fun i h1 h2 => ?_, fun k hk => ?_⟩, by decide +kernel, ⟨rfl, fun i h1 h2 => ?_, fun i h1 h2 => ?_, fun _ _ _ => rfl, ?_⟩, ?_, ⟨?_, ex_cv.pairs⟩,
    ⟨⟨ex_capacity.1.lo, ex_capacity.1.width⟩, 256, ⟨?_, ?_, ?_, ?_⟩, ⟨?_, ?_⟩, ?_⟩, ⟨fun i h1 h2 => ?_, fun k p q hp hq => ?_⟩⟩
  · have h3 : i ≤ 2 := h2
    interval_cases i <;> simp [exP]
  · have h3 : k < 2 := hk
    interval_cases k <;> simp [exP]
  · have h3 : i ≤ 2 := h2
    interval_cases i <;> simp [exP, widerP]
  · have h3 : i ≤ 2 := h2
    interval_cases i <;> simp [exP, widerP]
  · exact .cons ⟨rfl, rfl, le_rfl, le_rfl, rfl⟩ (.cons ⟨rfl, rfl, le_rfl, le_rfl, rfl⟩ .nil)
  · exact ⟨fun _ _ _ => by simp [widerP], ex_wf.i_pos, ex_wf.i_le, ex_wf.j_pos, ex_wf.j_le, ex_wf.ne, ex_wf.le⟩
  · intro i _ _ x _ _
    simp only [widerP, exP]
    push_cast
    nlinarith
  · simp [widerP]
  · simp [widerP]
  · simp [widerP, exP]
  · simp [widerP, exP]
  · simp [widerP]
  · simp [widerP, exP]
  · have : bitCeil ((widerP.n + 1) * 256) = 1024 := by decide +kernel
    rw [this]
    simp [widerP, exP]
  · have h3 : i ≤ 2 := h2
    interval_cases i <;> simp [exP]
  · have e : widerP.pairs = exP.pairs := rfl
    rw [e, hp] at hq
    cases hq
    exact ⟨.inl rfl, .inl rfl⟩

end AHO.Props
