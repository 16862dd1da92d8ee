import Verif.Proof.Solve
import Mathlib.Data.Finset.Basic
import Mathlib.Algebra.BigOperators.Fin
import Mathlib.Data.List.Forall2
/-!
# The outcome under changes of the problem
-/

set_option linter.unusedSectionVars false

namespace AHO
open Spec

section
variable {K : Type} [Field K] [LinearOrder K] [IsStrictOrderedRing K]
variable {P P' : Problem K} {r r' : Option K}

open ProblemSolver

theorem outcome_some (h : Outcome (problemCosts P) r) (v : K) : r = some v ↔ IsOptimum P v := by
  constructor
  · rintro rfl
    rcases h with ⟨h, -⟩ | ⟨w, h, h1, h2⟩
    · cases h
    · cases h
      exact ⟨h1, fun μ ω f => h2 ⟨μ, ω, f, rfl⟩⟩
  · intro ho
    refine outcome_unique h (.inr ⟨v, rfl, ho.1, ?_⟩)
    rintro w ⟨μ, ω, f, rfl⟩
    exact ho.2 _ _ f

theorem outcome_none (h : Outcome (problemCosts P) r) : r = none ↔ ¬ Solvable P := by
  constructor
  · rintro rfl
    rcases h with ⟨-, h⟩ | ⟨w, h, -⟩
    · rintro ⟨μ, ω, f⟩
      have : cost P μ ω ∈ problemCosts P := ⟨μ, ω, f, rfl⟩
      rw [h] at this
      exact this
    · cases h
  · intro hs
    refine outcome_unique h (.inl ⟨rfl, ?_⟩)
    ext w
    simp only [Set.mem_empty_iff_false, iff_false]
    rintro ⟨μ, ω, f, -⟩
    exact hs ⟨μ, ω, f⟩

/-- Cost sets in bijection by a shift. -/
theorem outcome_shift {S S' : Set K} {r r' : Option K} {c : K} (h : Outcome S r) (h' : Outcome S' r')
    (h1 : ∀ v ∈ S, v + c ∈ S') (h2 : ∀ v ∈ S', v - c ∈ S) : r' = r.map (· + c) := by
  refine outcome_unique h' ?_
  rcases h with ⟨rfl, h⟩ | ⟨v, rfl, h3, h4⟩
  · refine .inl ⟨rfl, ?_⟩
    ext w
    simp only [Set.mem_empty_iff_false, iff_false]
    intro hw
    have := h2 w hw
    rw [h] at this
    exact this
  · refine .inr ⟨v + c, rfl, h1 _ h3, ?_⟩
    intro w hw
    have := h4 (h2 w hw)
    linarith

theorem outcome_eq {S S' : Set K} {r r' : Option K} (h : Outcome S r) (h' : Outcome S' r') (e : S = S') : r = r' := by
  subst e; exact outcome_unique h h'

/-- A smaller set of not smaller costs. -/
theorem outcome_mono {S S' : Set K} {r r' : Option K} (h : Outcome S r) (h' : Outcome S' r')
    (h1 : ∀ v ∈ S', ∃ w ∈ S, w ≤ v) : ∀ v', r' = some v' → ∃ v, r = some v ∧ v ≤ v' := by
  rintro v' rfl
  rcases h' with ⟨h', -⟩ | ⟨w, h', h3, h4⟩
  · cases h'
  cases h'
  obtain ⟨w, w1, w2⟩ := h1 _ h3
  rcases h with ⟨rfl, h⟩ | ⟨v, rfl, h3, h4⟩
  · rw [h] at w1; exact absurd w1 (by simp)
  · exact ⟨v, rfl, le_trans (h4 w1) w2⟩

/-- The costs of the pairs at given `μ`, one pair after the other. -/
inductive PairsCost (μ : Nat → Int) : List (Pair K) → K → Prop
  | nil : PairsCost μ [] 0
  | cons {p : Pair K} {ps : List (Pair K)} {y : Int} {c : K} : p.l ≤ y → y ≤ p.u → μ p.i - μ p.j ≤ y →
      PairsCost μ ps c → PairsCost μ (p :: ps) (p.B y + c)

theorem pairsCost_iff (μ : Nat → Int) : ∀ (ps : List (Pair K)) (c : K), PairsCost μ ps c ↔ ∃ ω : Nat → Int,
    (∀ (k : Nat) (hk : k < ps.length), ps[k].l ≤ ω k ∧ ω k ≤ ps[k].u ∧ μ ps[k].i - μ ps[k].j ≤ ω k) ∧
      c = ∑ k : Fin ps.length, ps[k].B (ω k) := by
  intro ps
  induction ps with
  | nil =>
    intro c
    constructor
    · rintro ⟨⟩; exact ⟨fun _ => 0, by simp, by simp⟩
    · rintro ⟨ω, -, rfl⟩; simpa using PairsCost.nil
  | cons p ps ih =>
    intro c
    constructor
    · rintro (_ | ⟨h1, h2, h3, h4⟩)
      rename_i y c
      obtain ⟨ω, w1, w2⟩ := (ih _).1 h4
      refine ⟨fun k => match k with | 0 => y | k + 1 => ω k, ?_, ?_⟩
      · intro k hk
        cases k with
        | zero => exact ⟨h1, h2, h3⟩
        | succ k => simpa using w1 k (by simpa using hk)
      · simp only [List.length_cons]
        rw [Fin.sum_univ_succ, w2]
        simp
    · rintro ⟨ω, w1, w2⟩
      simp only [List.length_cons] at w2
      rw [Fin.sum_univ_succ] at w2
      have a := w1 0 (by simp)
      simp only [List.getElem_cons_zero] at a
      have := (ih (∑ k : Fin ps.length, ps[k].B (ω (k + 1)))).2 ⟨fun k => ω (k + 1), fun k hk => by
        have := w1 (k + 1) (by simpa using hk)
        simpa using this, rfl⟩
      have := PairsCost.cons a.1 a.2.1 a.2.2 this
      rw [w2]
      simpa using this

theorem mem_problemCosts {v : K} : v ∈ problemCosts P ↔ ∃ μ : Nat → Int,
    (∀ i, 1 ≤ i → i ≤ P.n → P.lo i ≤ μ i ∧ μ i ≤ P.hi i) ∧
      ∃ c, PairsCost μ P.pairs c ∧ v = ∑ i ∈ Finset.Icc 1 P.n, P.F i (μ i) + c := by
  constructor
  · rintro ⟨μ, ω, f, rfl⟩
    exact ⟨μ, f.1, _, (pairsCost_iff _ _ _).2 ⟨ω, f.2, rfl⟩, rfl⟩
  · rintro ⟨μ, f, c, hc, rfl⟩
    obtain ⟨ω, w, rfl⟩ := (pairsCost_iff _ _ _).1 hc
    exact ⟨μ, ω, ⟨f, w⟩, rfl⟩

theorem PairsCost.perm {μ : Nat → Int} {ps qs : List (Pair K)} (h : ps.Perm qs) :
    ∀ {c : K}, PairsCost μ ps c → PairsCost μ qs c := by
  induction h with
  | nil => exact id
  | cons p _ ih =>
    rintro c (_ | ⟨h1, h2, h3, h4⟩)
    exact .cons h1 h2 h3 (ih h4)
  | swap p q l =>
    rintro c (_ | ⟨h1, h2, h3, h4⟩)
    rcases h4 with (_ | ⟨g1, g2, g3, g4⟩)
    rename_i y _ y' c
    have := PairsCost.cons g1 g2 g3 (PairsCost.cons h1 h2 h3 g4)
    rwa [add_left_comm] at this
  | trans _ _ ih1 ih2 => exact fun h => ih2 (ih1 h)

theorem problemCosts_perm {qs : List (Pair K)} (h : P.pairs.Perm qs) :
    problemCosts { P with pairs := qs } = problemCosts P := by
  ext v
  rw [mem_problemCosts, mem_problemCosts]
  exact ⟨fun ⟨μ, f, c, hc, e⟩ => ⟨μ, f, c, hc.perm h.symm, e⟩, fun ⟨μ, f, c, hc, e⟩ => ⟨μ, f, c, hc.perm h, e⟩⟩

/-- Two lists of pairs that agree up to a shift of the costs. -/
theorem PairsCost.shift {μ : Nat → Int} {ps : List (Pair K)} : ∀ {b : Nat → K} {c : K}, PairsCost μ ps c →
    PairsCost μ (ps.mapIdx fun k p => { p with B := fun x => p.B x + b k }) (c + ∑ k ∈ Finset.range ps.length, b k) := by
  induction ps with
  | nil => rintro b c ⟨⟩; simpa using PairsCost.nil
  | cons p ps ih =>
    rintro b c (_ | ⟨h1, h2, h3, h4⟩)
    rename_i y c
    have := ih (b := fun k => b (k + 1)) h4
    rw [List.mapIdx_cons, List.length_cons, Finset.sum_range_succ']
    have := PairsCost.cons (p := { p with B := fun x => p.B x + b 0 }) h1 h2 h3 this
    convert this using 1
    ring

/-! ### Constants -/

theorem getElem_addConstants {a b : Nat → K} {k : Nat} (hk : k < (P.addConstants a b).pairs.length) :
    (P.addConstants a b).pairs[k] = { P.pairs[k]'(by simpa [Problem.addConstants] using hk) with
      B := fun x => (P.pairs[k]'(by simpa [Problem.addConstants] using hk)).B x + b k } := by
  simp [Problem.addConstants]

theorem mem_addConstants {a b : Nat → K} {q : Pair K} (h : q ∈ (P.addConstants a b).pairs) :
    ∃ p ∈ P.pairs, ∃ k, q = { p with B := fun x => p.B x + b k } := by
  obtain ⟨k, hk, rfl⟩ := List.getElem_of_mem h
  exact ⟨_, List.getElem_mem (show k < P.pairs.length by simpa [Problem.addConstants] using hk), k, getElem_addConstants hk⟩

theorem wf_addConstants {a b : Nat → K} (wf : WellFormed P) : WellFormed (P.addConstants a b) := by
  refine ⟨wf.nodes, ?_, ?_, ?_, ?_, ?_, ?_⟩ <;> intro q hq <;> obtain ⟨p, hp, k, rfl⟩ := mem_addConstants hq
  exacts [wf.i_pos p hp, wf.i_le p hp, wf.j_pos p hp, wf.j_le p hp, wf.ne p hp, wf.le p hp]

theorem cv_addConstants {a b : Nat → K} (cv : ConvexCosts P) : ConvexCosts (P.addConstants a b) := by
  constructor
  · intro i h1 h2 x x1 x2
    have := cv.nodes i h1 h2 x x1 x2
    simp only [Problem.addConstants]
    linarith
  · intro q hq x x1 x2
    obtain ⟨p, hp, k, rfl⟩ := mem_addConstants hq
    have := cv.pairs p hp x x1 x2
    dsimp only
    linarith

theorem cap_addConstants {a b : Nat → K} {imax : Int} (h : Capacity imax P) : Capacity imax (P.addConstants a b) := by
  obtain ⟨ri, W, wi, wd, hc⟩ := h
  refine ⟨⟨?_, ?_⟩, W, ⟨wi.lo, wi.hi, ?_, ?_⟩, ⟨wd.nodes, ?_⟩, hc⟩ <;> intro q hq <;>
    obtain ⟨p, hp, k, rfl⟩ := mem_addConstants hq
  exacts [ri.lo p hp, ri.width p hp, wi.u p hp, wi.diff p hp, wd.pairs p hp]

theorem costs_addConstants (a b : Nat → K) : ∀ v ∈ problemCosts P,
    v + (∑ i ∈ Finset.Icc 1 P.n, a i + ∑ k ∈ Finset.range P.pairs.length, b k) ∈ problemCosts (P.addConstants a b) := by
  intro v hv
  obtain ⟨μ, f, c, hc, rfl⟩ := mem_problemCosts.1 hv
  refine mem_problemCosts.2 ⟨μ, f, _, hc.shift, ?_⟩
  simp only [Problem.addConstants, Finset.sum_add_distrib]
  ring

theorem addConstants_neg (a b : Nat → K) :
    (P.addConstants a b).addConstants (fun i => - a i) (fun k => - b k) = P := by
  cases P
  simp only [Problem.addConstants, Problem.mk.injEq, true_and]
  constructor
  · funext i x; ring
  · rw [List.mapIdx_mapIdx]
    refine List.ext_getElem (by simp) fun k h1 h2 => ?_
    simp

theorem costs_addConstants' (a b : Nat → K) : ∀ v ∈ problemCosts (P.addConstants a b),
    v - (∑ i ∈ Finset.Icc 1 P.n, a i + ∑ k ∈ Finset.range P.pairs.length, b k) ∈ problemCosts P := by
  intro v hv
  have := costs_addConstants (fun i => - a i) (fun k => - b k) v hv
  rw [addConstants_neg] at this
  convert this using 1
  simp [Problem.addConstants]
  ring

/-! ### Renaming -/

section
variable {σ : Equiv.Perm Nat} (hσ : ∀ i, 1 ≤ i → i ≤ P.n → 1 ≤ σ i ∧ σ i ≤ P.n)
include hσ

theorem maps_icc : ∀ i, i ∈ Finset.Icc 1 P.n ↔ σ i ∈ Finset.Icc 1 P.n := by
  have hs : (Finset.Icc 1 P.n).image σ = Finset.Icc 1 P.n := by
    refine Finset.eq_of_subset_of_card_le ?_ ?_
    · intro x hx
      obtain ⟨i, hi, rfl⟩ := Finset.mem_image.1 hx
      rw [Finset.mem_Icc] at hi ⊢
      exact hσ i hi.1 hi.2
    · rw [Finset.card_image_of_injective _ σ.injective]
  intro i
  constructor
  · intro h
    rw [← hs]
    exact Finset.mem_image_of_mem _ h
  · intro h
    rw [← hs] at h
    obtain ⟨j, hj, e⟩ := Finset.mem_image.1 h
    rwa [← σ.injective e]

theorem maps_symm : ∀ i, 1 ≤ i → i ≤ P.n → 1 ≤ σ.symm i ∧ σ.symm i ≤ P.n := by
  intro i h1 h2
  have := (maps_icc hσ (σ.symm i)).2 (by rw [Equiv.apply_symm_apply]; exact Finset.mem_Icc.2 ⟨h1, h2⟩)
  exact Finset.mem_Icc.1 this

theorem wf_rename (wf : WellFormed P) : WellFormed (P.rename σ) := by
  have s := maps_symm hσ
  refine ⟨fun i h1 h2 => wf.nodes _ (s i h1 h2).1 (s i h1 h2).2, ?_, ?_, ?_, ?_, ?_, ?_⟩ <;> intro q hq <;>
    obtain ⟨p, hp, rfl⟩ := List.mem_map.1 hq
  · exact (hσ _ (wf.i_pos p hp) (wf.i_le p hp)).1
  · exact (hσ _ (wf.i_pos p hp) (wf.i_le p hp)).2
  · exact (hσ _ (wf.j_pos p hp) (wf.j_le p hp)).1
  · exact (hσ _ (wf.j_pos p hp) (wf.j_le p hp)).2
  · exact fun h => wf.ne p hp (σ.injective h)
  · exact wf.le p hp

theorem cv_rename (cv : ConvexCosts P) : ConvexCosts (P.rename σ) := by
  have s := maps_symm hσ
  refine ⟨fun i h1 h2 => cv.nodes _ (s i h1 h2).1 (s i h1 h2).2, fun q hq => ?_⟩
  obtain ⟨p, hp, rfl⟩ := List.mem_map.1 hq
  exact cv.pairs p hp

theorem cap_rename {imax : Int} (h : Capacity imax P) : Capacity imax (P.rename σ) := by
  have s := maps_symm hσ
  obtain ⟨ri, W, wi, wd, hc⟩ := h
  refine ⟨⟨?_, ?_⟩, W, ⟨fun i h1 h2 => wi.lo _ (s i h1 h2).1 (s i h1 h2).2,
    fun i h1 h2 => wi.hi _ (s i h1 h2).1 (s i h1 h2).2, ?_, ?_⟩, ⟨fun i h1 h2 => wd.nodes _ (s i h1 h2).1 (s i h1 h2).2, ?_⟩, hc⟩ <;>
    intro q hq <;> obtain ⟨p, hp, rfl⟩ := List.mem_map.1 hq
  · exact ri.lo p hp
  · exact ri.width p hp
  · exact wi.u p hp
  · simpa [Problem.rename] using wi.diff p hp
  · simpa [Problem.rename] using wd.pairs p hp

theorem costs_rename : problemCosts (P.rename σ) = problemCosts P := by
  have key : ∀ (μ : Nat → Int) (ps : List (Pair K)) (c : K),
      PairsCost μ (ps.map fun p => { p with i := σ p.i, j := σ p.j }) c ↔ PairsCost (fun i => μ (σ i)) ps c := by
    intro μ ps
    induction ps with
    | nil => intro c; constructor <;> (rintro ⟨⟩; exact .nil)
    | cons p ps ih =>
      intro c
      constructor
      · rintro (_ | ⟨h1, h2, h3, h4⟩)
        exact .cons h1 h2 h3 ((ih _).1 h4)
      · rintro (_ | ⟨h1, h2, h3, h4⟩)
        exact PairsCost.cons (p := { p with i := σ p.i, j := σ p.j }) h1 h2 h3 ((ih _).2 h4)
  have sum : ∀ μ : Nat → Int, ∑ i ∈ Finset.Icc 1 P.n, P.F (σ.symm i) (μ i) = ∑ i ∈ Finset.Icc 1 P.n, P.F i (μ (σ i)) := by
    intro μ
    refine (Finset.sum_equiv σ (maps_icc hσ) fun i _ => ?_).symm
    rw [Equiv.symm_apply_apply]
  have s := maps_symm hσ
  ext v
  rw [mem_problemCosts, mem_problemCosts]
  constructor
  · rintro ⟨μ, f, c, hc, rfl⟩
    refine ⟨fun i => μ (σ i), fun i h1 h2 => ?_, c, (key _ _ _).1 hc, ?_⟩
    · have := f (σ i) (hσ i h1 h2).1 (hσ i h1 h2).2
      simpa [Problem.rename] using this
    · rw [← sum]; rfl
  · rintro ⟨μ, f, c, hc, rfl⟩
    refine ⟨fun i => μ (σ.symm i), fun i h1 h2 => f _ (s i h1 h2).1 (s i h1 h2).2, c, (key _ _ _).2 (by simpa using hc), ?_⟩
    have := sum fun i => μ (σ.symm i)
    simp only [Equiv.symm_apply_apply] at this
    rw [← this]; rfl

end

/-! ### Translation -/

theorem PairsCost.translate {μ : Nat → Int} (c : Int) {ps : List (Pair K)} : ∀ {v : K}, PairsCost μ ps v →
    PairsCost (fun i => μ i + c) ps v := by
  induction ps with
  | nil => rintro v ⟨⟩; exact .nil
  | cons p ps ih =>
    rintro v (_ | ⟨h1, h2, h3, h4⟩)
    exact .cons h1 h2 (by omega) (ih h4)

theorem costs_translate (c : Int) : problemCosts (P.translate c) = problemCosts P := by
  ext v
  rw [mem_problemCosts, mem_problemCosts]
  constructor
  · rintro ⟨μ, f, d, hd, rfl⟩
    refine ⟨fun i => μ i + -c, fun i h1 h2 => ?_, d, hd.translate _, rfl⟩
    have := f i h1 h2
    simp only [Problem.translate] at this
    dsimp only
    omega
  · rintro ⟨μ, f, d, hd, rfl⟩
    refine ⟨fun i => μ i + c, fun i h1 h2 => ?_, d, hd.translate _, ?_⟩
    · have := f i h1 h2
      simp only [Problem.translate]
      omega
    · simp [Problem.translate]

theorem wf_translate {c : Int} (wf : WellFormed P) : WellFormed (P.translate c) :=
  ⟨fun i h1 h2 => by have := wf.nodes i h1 h2; simp only [Problem.translate]; omega,
    wf.i_pos, wf.i_le, wf.j_pos, wf.j_le, wf.ne, wf.le⟩

theorem cv_translate {c : Int} (cv : ConvexCosts P) : ConvexCosts (P.translate c) := by
  refine ⟨fun i h1 h2 x x1 x2 => ?_, cv.pairs⟩
  simp only [Problem.translate] at x1 x2 ⊢
  have := cv.nodes i h1 h2 (x - c) (by omega) (by omega)
  rwa [show x - c + 1 = x + 1 - c by ring, show x - c + 2 = x + 2 - c by ring] at this

/-! ### Smaller ranges, more pairs -/

theorem costs_shrinks (h : P.Shrinks P') : ∀ v ∈ problemCosts P', v ∈ problemCosts P := by
  intro v hv
  obtain ⟨μ, f, c, hc, rfl⟩ := mem_problemCosts.1 hv
  refine mem_problemCosts.2 ⟨μ, fun i h1 h2 => ?_, c, ?_, ?_⟩
  · have := f i h1 (by rw [h.n]; exact h2)
    have a := h.lo i h1 h2
    have b := h.hi i h1 h2
    omega
  · have := h.pairs
    clear f hv
    generalize P'.pairs = qs at *
    generalize P.pairs = ps at *
    clear h
    induction this generalizing c with
    | nil => exact hc
    | cons hp _ ih =>
      obtain ⟨e1, e2, e3, e4, e5⟩ := hp
      rcases hc with (_ | ⟨h1, h2, h3, h4⟩)
      rw [e5]
      exact .cons (by omega) (by omega) (by rw [← e1, ← e2]; exact h3) (ih _ h4)
  · rw [h.n]
    congr 1
    refine Finset.sum_congr rfl fun i hi => ?_
    rw [Finset.mem_Icc] at hi
    rw [h.F i hi.1 hi.2]

theorem convex_sub {g : Int → K} {l u l' u' : Int} (h : Convex g l u) (hl : l ≤ l') (hu : u' ≤ u) : Convex g l' u' :=
  fun x h1 h2 => h x (by omega) (by omega)

theorem mem_forall₂ {α β : Type} {R : α → β → Prop} {l : List α} {l' : List β} (h : List.Forall₂ R l l') :
    ∀ b ∈ l', ∃ a ∈ l, R a b := by
  induction h with
  | nil => simp
  | cons h _ ih =>
    intro b hb
    rcases List.mem_cons.1 hb with rfl | hb
    · exact ⟨_, by simp, h⟩
    · obtain ⟨a, h1, h2⟩ := ih b hb; exact ⟨a, by simp [h1], h2⟩

theorem cv_shrinks (h : P.Shrinks P') (cv : ConvexCosts P) : ConvexCosts P' := by
  constructor
  · intro i h1 h2
    rw [h.n] at h2
    rw [h.F i h1 h2]
    exact convex_sub (cv.nodes i h1 h2) (h.lo i h1 h2) (h.hi i h1 h2)
  · intro q hq
    obtain ⟨p, hp, e1, e2, e3, e4, e5⟩ := mem_forall₂ h.pairs q hq
    rw [e5]
    exact convex_sub (cv.pairs p hp) e3 e4

theorem cap_shrinks {imax : Int} (h : P.Shrinks P') (wf : WellFormed P) (hc : Capacity imax P) : Capacity imax P' := by
  obtain ⟨ri, W, wi, wd, hc⟩ := hc
  refine ⟨⟨?_, ?_⟩, W, ⟨?_, ?_, ?_, ?_⟩, ⟨?_, ?_⟩, by rw [h.n]; exact hc⟩
  · intro q hq
    obtain ⟨p, hp, e1, e2, e3, e4, e5⟩ := mem_forall₂ h.pairs q hq
    have := ri.lo p hp
    omega
  · intro q hq
    obtain ⟨p, hp, e1, e2, e3, e4, e5⟩ := mem_forall₂ h.pairs q hq
    have := ri.width p hp
    omega
  · intro i h1 h2
    rw [h.n] at h2
    have := h.lo i h1 h2
    have := wi.lo i h1 h2
    omega
  · intro i h1 h2
    rw [h.n] at h2
    have := h.hi i h1 h2
    have := wi.hi i h1 h2
    omega
  · intro q hq
    obtain ⟨p, hp, e1, e2, e3, e4, e5⟩ := mem_forall₂ h.pairs q hq
    have := wi.u p hp
    omega
  · intro q hq
    obtain ⟨p, hp, e1, e2, e3, e4, e5⟩ := mem_forall₂ h.pairs q hq
    have := wi.diff p hp
    rw [e1, e2]
    have := h.lo _ (wf.i_pos p hp) (wf.i_le p hp)
    have := h.hi _ (wf.j_pos p hp) (wf.j_le p hp)
    omega
  · intro i h1 h2
    rw [h.n] at h2
    have := h.hi i h1 h2
    have := h.lo i h1 h2
    have := wd.nodes i h1 h2
    omega
  · intro q hq
    obtain ⟨p, hp, e1, e2, e3, e4, e5⟩ := mem_forall₂ h.pairs q hq
    have := wd.pairs p hp
    rw [e1, e2]
    have := h.lo _ (wf.i_pos p hp) (wf.i_le p hp)
    have := h.hi _ (wf.j_pos p hp) (wf.j_le p hp)
    omega

theorem PairsCost.of_append {μ : Nat → Int} {qs : List (Pair K)} (hq : ∀ q ∈ qs, ∀ x, q.l ≤ x → x ≤ q.u → 0 ≤ q.B x) :
    ∀ {ps : List (Pair K)} {v : K}, PairsCost μ (ps ++ qs) v → ∃ w, PairsCost μ ps w ∧ w ≤ v := by
  intro ps
  induction ps with
  | nil =>
    intro v hv
    refine ⟨0, .nil, ?_⟩
    rw [List.nil_append] at hv
    induction hv with
    | nil => exact le_rfl
    | cons h1 h2 _ _ ih =>
      have := ih fun q hm => hq q (by simp [hm])
      have := hq _ (by simp) _ h1 h2
      linarith
  | cons p ps ih =>
    rintro v (_ | ⟨h1, h2, h3, h4⟩)
    obtain ⟨w, h5, h6⟩ := ih h4
    exact ⟨_, .cons h1 h2 h3 h5, by linarith⟩

theorem costs_append {qs : List (Pair K)} (hq : ∀ q ∈ qs, ∀ x, q.l ≤ x → x ≤ q.u → 0 ≤ q.B x) :
    ∀ v ∈ problemCosts { P with pairs := P.pairs ++ qs }, ∃ w ∈ problemCosts P, w ≤ v := by
  intro v hv
  obtain ⟨μ, f, c, hc, rfl⟩ := mem_problemCosts.1 hv
  obtain ⟨w, h1, h2⟩ := PairsCost.of_append hq hc
  exact ⟨_, mem_problemCosts.2 ⟨μ, f, w, h1, rfl⟩, by linarith⟩

end
end AHO
