import Verif.SpecRelaxed
import Verif.Proof.Transform
import Mathlib.Algebra.BigOperators.Intervals
/-!
# Problems which are related to each other
-/

set_option linter.unusedSectionVars false

namespace AHO
open Spec ProblemSolver

variable {K : Type} [Field K] [LinearOrder K] [IsStrictOrderedRing K] {P Q : Problem K}

/-! ### Scaling the costs -/

theorem PairsCost.scale {μ : Nat → Int} {ps : List (Pair K)} (a : K) : ∀ {c : K}, PairsCost μ ps c →
    PairsCost μ (ps.map fun p => { p with B := fun x => a * p.B x }) (a * c) := by
  induction ps with
  | nil => rintro c ⟨⟩; simpa using PairsCost.nil
  | cons p ps ih =>
    rintro c (_ | ⟨h1, h2, h3, h4⟩)
    have := PairsCost.cons (p := { p with B := fun x => a * p.B x }) h1 h2 h3 (ih h4)
    rw [mul_add]
    exact this

theorem costs_scale (a : K) : ∀ v ∈ problemCosts P, a * v ∈ problemCosts (P.scale a) := by
  intro v hv
  obtain ⟨μ, f, c, hc, rfl⟩ := mem_problemCosts.1 hv
  refine mem_problemCosts.2 ⟨μ, f, a * c, hc.scale a, ?_⟩
  rw [mul_add, Finset.mul_sum]
  rfl

theorem scale_scale {a b : K} (h : a * b = 1) : (P.scale b).scale a = P := by
  obtain ⟨n, lo, hi, F, pairs⟩ := P
  simp only [Problem.scale, List.map_map, ← mul_assoc, h, one_mul, Problem.mk.injEq, true_and, Function.comp_def]
  exact List.map_id _

theorem wf_scale {a : K} (wf : WellFormed P) : WellFormed (P.scale a) := by
  constructor
  · exact wf.nodes
  all_goals
    intro p hp
    obtain ⟨q, hq, rfl⟩ := List.mem_map.1 hp
  · exact wf.i_pos q hq
  · exact wf.i_le q hq
  · exact wf.j_pos q hq
  · exact wf.j_le q hq
  · exact wf.ne q hq
  · exact wf.le q hq

theorem cv_scale {a : K} (ha : 0 ≤ a) (cv : ConvexCosts P) : ConvexCosts (P.scale a) := by
  constructor
  · intro i h1 h2 x hx hu
    have := mul_le_mul_of_nonneg_left (cv.nodes i h1 h2 x hx hu) ha
    simpa [Problem.scale, mul_sub] using this
  · intro p hp x hx hu
    obtain ⟨q, hq, rfl⟩ := List.mem_map.1 hp
    have := mul_le_mul_of_nonneg_left (cv.pairs q hq x hx hu) ha
    simpa [mul_sub] using this

theorem cap_scale {a : K} {imax : Int} (h : Capacity imax P) : Capacity imax (P.scale a) := by
  obtain ⟨⟨r1, r2⟩, W, ⟨w1, w2, w3, w4⟩, ⟨d1, d2⟩, hc⟩ := h
  refine ⟨⟨?_, ?_⟩, W, ⟨w1, w2, ?_, ?_⟩, ⟨d1, ?_⟩, hc⟩ <;> intro p hp <;> obtain ⟨q, hq, rfl⟩ := List.mem_map.1 hp
  · exact r1 q hq
  · exact r2 q hq
  · exact w3 q hq
  · exact w4 q hq
  · exact d2 q hq

theorem outcome_scale {a : K} (ha : 0 < a) {r r' : Option K} (h : Outcome (problemCosts P) r) (h' : Outcome (problemCosts (P.scale a)) r') :
    r' = r.map (a * ·) := by
  refine outcome_unique h' ?_
  have back : ∀ v ∈ problemCosts (P.scale a), a⁻¹ * v ∈ problemCosts P := by
    intro v hv
    have := costs_scale a⁻¹ v hv
    rwa [scale_scale (inv_mul_cancel₀ ha.ne')] at this
  rcases h with ⟨rfl, h⟩ | ⟨v, rfl, h3, h4⟩
  · refine .inl ⟨rfl, ?_⟩
    ext w
    simp only [Set.mem_empty_iff_false, iff_false]
    intro hw
    have := back w hw
    rw [h] at this
    exact this
  · refine .inr ⟨a * v, rfl, costs_scale a _ h3, ?_⟩
    intro w hw
    have := mul_le_mul_of_nonneg_left (h4 (back w hw)) ha.le
    rwa [mul_inv_cancel_left₀ ha.ne'] at this

/-! ### Changing the signs -/

theorem PairsCost.mirror {μ : Nat → Int} {ps : List (Pair K)} : ∀ {c : K}, PairsCost μ ps c →
    PairsCost (fun i => -μ i) (ps.map fun p => { p with i := p.j, j := p.i }) c := by
  induction ps with
  | nil => rintro c ⟨⟩; exact .nil
  | cons p ps ih =>
    rintro c (_ | ⟨h1, h2, h3, h4⟩)
    exact PairsCost.cons (p := { p with i := p.j, j := p.i }) h1 h2 (by dsimp only; omega) (ih h4)

theorem costs_mirror_sub : ∀ v ∈ problemCosts P, v ∈ problemCosts P.mirror := by
  intro v hv
  obtain ⟨μ, f, c, hc, rfl⟩ := mem_problemCosts.1 hv
  refine mem_problemCosts.2 ⟨fun i => -μ i, fun i h1 h2 => ?_, c, hc.mirror, ?_⟩
  · have := f i h1 h2
    simp only [Problem.mirror]
    omega
  · simp [Problem.mirror]

theorem mirror_mirror : P.mirror.mirror = P := by
  obtain ⟨n, lo, hi, F, pairs⟩ := P
  simp [Problem.mirror, Function.comp_def]

theorem costs_mirror : problemCosts P.mirror = problemCosts P := by
  refine Set.Subset.antisymm (fun v hv => ?_) costs_mirror_sub
  have := costs_mirror_sub v hv
  rwa [mirror_mirror] at this

theorem wf_mirror (wf : WellFormed P) : WellFormed P.mirror := by
  constructor
  · intro i h1 h2
    have := wf.nodes i h1 h2
    simp only [Problem.mirror]
    omega
  all_goals
    intro p hp
    obtain ⟨q, hq, rfl⟩ := List.mem_map.1 hp
  · exact wf.j_pos q hq
  · exact wf.j_le q hq
  · exact wf.i_pos q hq
  · exact wf.i_le q hq
  · exact (wf.ne q hq).symm
  · exact wf.le q hq

theorem cv_mirror (cv : ConvexCosts P) : ConvexCosts P.mirror := by
  constructor
  · intro i h1 h2 x hx hu
    simp only [Problem.mirror] at hx hu ⊢
    have := cv.nodes i h1 h2 (-(x + 2)) (by omega) (by omega)
    rw [show -(x + 2) + 1 = -(x + 1) by ring, show -(x + 2) + 2 = -x by ring] at this
    linarith
  · intro p hp x hx hu
    obtain ⟨q, hq, rfl⟩ := List.mem_map.1 hp
    exact cv.pairs q hq x hx hu

theorem cap_mirror {imax : Int} (h : Capacity imax P) : Capacity imax P.mirror := by
  obtain ⟨⟨r1, r2⟩, W, ⟨w1, w2, w3, w4⟩, ⟨d1, d2⟩, hc⟩ := h
  refine ⟨⟨?_, ?_⟩, W, ⟨?_, ?_, ?_, ?_⟩, ⟨?_, ?_⟩, hc⟩
  · intro p hp; obtain ⟨q, hq, rfl⟩ := List.mem_map.1 hp; exact r1 q hq
  · intro p hp; obtain ⟨q, hq, rfl⟩ := List.mem_map.1 hp; exact r2 q hq
  · intro i h1 h2; have := w2 i h1 h2; simp only [Problem.mirror]; omega
  · intro i h1 h2; have := w1 i h1 h2; simp only [Problem.mirror]; omega
  · intro p hp; obtain ⟨q, hq, rfl⟩ := List.mem_map.1 hp; exact w3 q hq
  · intro p hp; obtain ⟨q, hq, rfl⟩ := List.mem_map.1 hp; have := w4 q hq; simp only [Problem.mirror]; omega
  · intro i h1 h2; have := d1 i h1 h2; simp only [Problem.mirror]; omega
  · intro p hp; obtain ⟨q, hq, rfl⟩ := List.mem_map.1 hp; have := d2 q hq; simp only [Problem.mirror]; omega

/-! ### Costs which differ little -/

theorem PairsCost.near {μ : Nat → Int} {δ : K} {ps qs : List (Pair K)}
    (h : List.Forall₂ (fun p p' : Pair K => p'.i = p.i ∧ p'.j = p.j ∧ p'.l = p.l ∧ p'.u = p.u ∧
      ∀ x, p.l ≤ x → x ≤ p.u → |p'.B x - p.B x| ≤ δ) ps qs) :
    ∀ {c : K}, PairsCost μ ps c → ∃ d, PairsCost μ qs d ∧ |d - c| ≤ ps.length * δ := by
  induction h with
  | nil => rintro c ⟨⟩; exact ⟨0, .nil, by simp⟩
  | cons hp _ ih =>
    obtain ⟨i, j, l, u, hB⟩ := hp
    rintro c (_ | ⟨h1, h2, h3, h4⟩)
    rename_i y c
    obtain ⟨d, hd, hd'⟩ := ih h4
    refine ⟨_, .cons (l ▸ h1) (u ▸ h2) (i ▸ j ▸ h3) hd, ?_⟩
    have := hB y h1 h2
    rw [List.length_cons]
    push_cast
    rw [abs_le] at *
    constructor <;> linarith [this.1, this.2, hd'.1, hd'.2]

theorem costs_near {δ : K} (h : P.Near Q δ) : ∀ v ∈ problemCosts P, ∃ w ∈ problemCosts Q, |w - v| ≤ ((P.n + P.pairs.length : Nat) : K) * δ := by
  intro v hv
  obtain ⟨μ, f, c, hc, rfl⟩ := mem_problemCosts.1 hv
  obtain ⟨d, hd, hd'⟩ := hc.near h.pairs
  refine ⟨_, mem_problemCosts.2 ⟨μ, fun i h1 h2 => ?_, d, hd, rfl⟩, ?_⟩
  · have h2 : i ≤ P.n := by rw [← h.n]; exact h2
    rw [h.lo i h1 h2, h.hi i h1 h2]
    exact f i h1 h2
  · have hs : |∑ i ∈ Finset.Icc 1 P.n, (Q.F i (μ i) - P.F i (μ i))| ≤ P.n * δ := by
      refine (Finset.abs_sum_le_sum_abs _ _).trans ?_
      refine (Finset.sum_le_card_nsmul _ _ δ fun i hi => ?_).trans (by simp)
      obtain ⟨h1, h2⟩ := Finset.mem_Icc.1 hi
      exact h.nodes i h1 h2 _ (f i h1 h2).1 (f i h1 h2).2
    rw [Finset.sum_sub_distrib] at hs
    rw [h.n]
    push_cast
    rw [abs_le] at *
    constructor <;> linarith [hs.1, hs.2, hd'.1, hd'.2]

theorem Near.symm {δ : K} (h : P.Near Q δ) : Q.Near P δ where
  n := h.n.symm
  lo i h1 h2 := (h.lo i h1 (h.n ▸ h2)).symm
  hi i h1 h2 := (h.hi i h1 (h.n ▸ h2)).symm
  nodes i h1 h2 x hx hx' := by
    have h2 : i ≤ P.n := h.n ▸ h2
    rw [abs_sub_comm]
    exact h.nodes i h1 h2 x (h.lo i h1 h2 ▸ hx) (h.hi i h1 h2 ▸ hx')
  pairs := by
    refine List.Forall₂.flip (h.pairs.imp fun p q ⟨i, j, l, u, hB⟩ => ⟨i.symm, j.symm, l.symm, u.symm, fun x hx hx' => ?_⟩)
    rw [abs_sub_comm]
    exact hB x (l ▸ hx) (u ▸ hx')

/-- The two results are both empty or differ little. -/
theorem outcome_near {δ : K} (h : P.Near Q δ) {r r' : Option K} (h1 : Outcome (problemCosts P) r) (h2 : Outcome (problemCosts Q) r') :
    (r = none ↔ r' = none) ∧ ∀ v w, r = some v → r' = some w → |w - v| ≤ ((P.n + P.pairs.length : Nat) : K) * δ := by
  have hlen : Q.n + Q.pairs.length = P.n + P.pairs.length := by rw [h.n, h.pairs.length_eq]
  have s := costs_near h
  have t := costs_near (Near.symm h)
  rw [hlen] at t
  rcases h1 with ⟨rfl, e⟩ | ⟨v, rfl, a, b⟩ <;> rcases h2 with ⟨rfl, e'⟩ | ⟨v', rfl, a', b'⟩
  · simp
  · obtain ⟨w, hw, -⟩ := t _ a'
    rw [e] at hw
    exact absurd hw (by simp)
  · obtain ⟨w, hw, -⟩ := s _ a
    rw [e'] at hw
    exact absurd hw (by simp)
  · refine ⟨by simp, ?_⟩
    rintro _ _ ⟨⟩ ⟨⟩
    obtain ⟨w, hw, hw'⟩ := t _ a'
    obtain ⟨x, hx, hx'⟩ := s _ a
    have p1 := b hw
    have p2 := b' hx
    rw [abs_le] at *
    constructor <;> linarith [hw'.1, hw'.2, hx'.1, hx'.2]

/-! ### Two problems side by side -/

theorem PairsCost.append {μ : Nat → Int} {ps qs : List (Pair K)} {d : K} (h : PairsCost μ qs d) : ∀ {c : K}, PairsCost μ ps c →
    PairsCost μ (ps ++ qs) (c + d) := by
  induction ps with
  | nil => rintro c ⟨⟩; simpa using h
  | cons p ps ih =>
    rintro c (_ | ⟨h1, h2, h3, h4⟩)
    rw [add_assoc]
    exact .cons h1 h2 h3 (ih h4)

theorem PairsCost.split {μ : Nat → Int} {ps qs : List (Pair K)} : ∀ {c : K}, PairsCost μ (ps ++ qs) c →
    ∃ a b, PairsCost μ ps a ∧ PairsCost μ qs b ∧ c = a + b := by
  induction ps with
  | nil => intro c h; exact ⟨0, c, .nil, h, by simp⟩
  | cons p ps ih =>
    rintro c (_ | ⟨h1, h2, h3, h4⟩)
    obtain ⟨a, b, ha, hb, rfl⟩ := ih h4
    exact ⟨_, b, .cons h1 h2 h3 ha, hb, by rw [add_assoc]⟩

theorem PairsCost.reindex {μ ν : Nat → Int} {ps : List (Pair K)} {f : Nat → Nat} (h : ∀ p ∈ ps, μ (f p.i) = ν p.i ∧ μ (f p.j) = ν p.j) {c : K} :
    PairsCost μ (ps.map fun p => { p with i := f p.i, j := f p.j }) c ↔ PairsCost ν ps c := by
  induction ps generalizing c with
  | nil => exact ⟨by rintro ⟨⟩; exact .nil, by rintro ⟨⟩; exact .nil⟩
  | cons p ps ih =>
    have ih := fun {c} => ih (c := c) fun q hq => h q (List.mem_cons_of_mem _ hq)
    obtain ⟨hi, hj⟩ := h p List.mem_cons_self
    constructor
    · rintro (_ | ⟨h1, h2, h3, h4⟩)
      exact .cons h1 h2 (by dsimp only at h3; rwa [hi, hj] at h3) (ih.1 h4)
    · rintro (_ | ⟨h1, h2, h3, h4⟩)
      exact PairsCost.cons (p := { p with i := f p.i, j := f p.j }) h1 h2 (by dsimp only; rwa [hi, hj]) (ih.2 h4)

theorem sum_union (F G : Nat → K) (m n : Nat) : ∑ i ∈ Finset.Icc 1 (m + n), (if i ≤ m then F i else G (i - m)) =
    ∑ i ∈ Finset.Icc 1 m, F i + ∑ i ∈ Finset.Icc 1 n, G i := by
  induction n with
  | zero => simp only [add_zero, Finset.Icc_eq_empty (show ¬ (1 : Nat) ≤ 0 by decide), Finset.sum_empty]
            exact Finset.sum_congr rfl fun i hi => if_pos (Finset.mem_Icc.1 hi).2
  | succ n ih =>
    rw [← add_assoc, Finset.sum_Icc_succ_top (by omega), Finset.sum_Icc_succ_top (by omega), ih, if_neg (by omega), add_assoc]
    congr 3
    omega

/-- the costs of the two problems side by side are the sums of their costs -/
theorem mem_costs_union (wP : WellFormed P) (wQ : WellFormed Q) {v : K} :
    v ∈ problemCosts (P.union Q) ↔ ∃ a ∈ problemCosts P, ∃ b ∈ problemCosts Q, v = a + b := by
  constructor
  · intro hv
    obtain ⟨μ, f, c, hc, rfl⟩ := mem_problemCosts.1 hv
    obtain ⟨a, b, ha, hb, rfl⟩ := hc.split
    have hb' : PairsCost (fun i => μ (P.n + i)) Q.pairs b := (PairsCost.reindex (f := fun i => P.n + i) fun p _ => ⟨rfl, rfl⟩).1 hb
    refine ⟨_, mem_problemCosts.2 ⟨μ, fun i h1 h2 => ?_, a, ha, rfl⟩, _, mem_problemCosts.2 ⟨fun i => μ (P.n + i), fun i h1 h2 => ?_, b, hb', rfl⟩, ?_⟩
    · have := f i h1 (show i ≤ P.n + Q.n by omega)
      simpa only [Problem.union, if_pos h2] using this
    · have := f (P.n + i) (by omega) (show P.n + i ≤ P.n + Q.n by omega)
      have h : ¬ P.n + i ≤ P.n := by omega
      simpa only [Problem.union, if_neg h, Nat.add_sub_cancel_left] using this
    · have e : ∑ i ∈ Finset.Icc 1 (P.union Q).n, (P.union Q).F i (μ i) =
          ∑ i ∈ Finset.Icc 1 (P.n + Q.n), (if i ≤ P.n then P.F i (μ i) else Q.F (i - P.n) (μ (P.n + (i - P.n)))) := by
        refine Finset.sum_congr rfl fun i _ => ?_
        simp only [Problem.union]
        split
        · rfl
        · congr 2; omega
      rw [e, sum_union (fun i => P.F i (μ i)) (fun i => Q.F i (μ (P.n + i)))]
      ring
  · rintro ⟨a, ha, b, hb, rfl⟩
    obtain ⟨μ, f, c, hc, rfl⟩ := mem_problemCosts.1 ha
    obtain ⟨ν, g, d, hd, rfl⟩ := mem_problemCosts.1 hb
    let κ : Nat → Int := fun i => if i ≤ P.n then μ i else ν (i - P.n)
    have hc' : PairsCost κ P.pairs c := by
      have := (PairsCost.reindex (K := K) (μ := κ) (ν := μ) (ps := P.pairs) (f := id) (c := c) fun p hp =>
        ⟨if_pos (wP.i_le p hp), if_pos (wP.j_le p hp)⟩).2 hc
      simpa using this
    have hd' : PairsCost κ (Q.pairs.map fun p => { p with i := P.n + p.i, j := P.n + p.j }) d := by
      refine (PairsCost.reindex (f := fun i => P.n + i) fun p hp => ?_).2 hd
      have h1 := wQ.i_pos p hp
      have h2 := wQ.j_pos p hp
      simp only [κ]
      rw [if_neg (by omega), if_neg (by omega), Nat.add_sub_cancel_left, Nat.add_sub_cancel_left]
      exact ⟨rfl, rfl⟩
    refine mem_problemCosts.2 ⟨κ, fun i h1 h2 => ?_, c + d, PairsCost.append hd' hc', ?_⟩
    · have h2 : i ≤ P.n + Q.n := h2
      simp only [Problem.union, κ]
      split
      · exact f i h1 (by assumption)
      · exact g _ (by omega) (by omega)
    · have e : ∑ i ∈ Finset.Icc 1 (P.union Q).n, (P.union Q).F i (κ i) =
          ∑ i ∈ Finset.Icc 1 (P.n + Q.n), (if i ≤ P.n then P.F i (μ i) else Q.F (i - P.n) (ν (i - P.n))) := by
        refine Finset.sum_congr rfl fun i _ => ?_
        simp only [Problem.union, κ]
        split <;> rfl
      rw [e, sum_union (fun i => P.F i (μ i)) (fun i => Q.F i (ν i))]
      ring

theorem outcome_union (wP : WellFormed P) (wQ : WellFormed Q) {r s t : Option K} (hr : Outcome (problemCosts P) r) (hs : Outcome (problemCosts Q) s)
    (ht : Outcome (problemCosts (P.union Q)) t) : t = r.bind fun v => s.map (v + ·) := by
  refine outcome_unique ht ?_
  rcases hr with ⟨rfl, e⟩ | ⟨v, rfl, a, b⟩
  · refine .inl ⟨rfl, ?_⟩
    ext w
    simp only [Set.mem_empty_iff_false, iff_false]
    intro hw
    obtain ⟨x, hx, -⟩ := (mem_costs_union wP wQ).1 hw
    rw [e] at hx
    exact hx
  rcases hs with ⟨rfl, e⟩ | ⟨v', rfl, a', b'⟩
  · refine .inl ⟨rfl, ?_⟩
    ext w
    simp only [Set.mem_empty_iff_false, iff_false]
    intro hw
    obtain ⟨x, hx, y, hy, -⟩ := (mem_costs_union wP wQ).1 hw
    rw [e] at hy
    exact hy
  · refine .inr ⟨v + v', rfl, (mem_costs_union wP wQ).2 ⟨v, a, v', a', rfl⟩, ?_⟩
    intro w hw
    obtain ⟨x, hx, y, hy, rfl⟩ := (mem_costs_union wP wQ).1 hw
    exact add_le_add (b hx) (b' hy)

theorem wf_union (wP : WellFormed P) (wQ : WellFormed Q) : WellFormed (P.union Q) := by
  have hm : ∀ p ∈ (P.union Q).pairs, p ∈ P.pairs ∨ ∃ q ∈ Q.pairs, p = { q with i := P.n + q.i, j := P.n + q.j } := by
    intro p hp
    rcases List.mem_append.1 hp with h | h
    · exact .inl h
    · obtain ⟨q, hq, rfl⟩ := List.mem_map.1 h
      exact .inr ⟨q, hq, rfl⟩
  constructor
  · intro i h1 h2
    have h2 : i ≤ P.n + Q.n := h2
    simp only [Problem.union]
    split
    · exact wP.nodes i h1 (by assumption)
    · exact wQ.nodes _ (by omega) (by omega)
  all_goals
    intro p hp
    rcases hm p hp with h | ⟨q, hq, rfl⟩
  · exact wP.i_pos p h
  · have := wQ.i_pos q hq; dsimp only; omega
  · exact (wP.i_le p h).trans (Nat.le_add_right _ _)
  · exact Nat.add_le_add_left (wQ.i_le q hq) _
  · exact wP.j_pos p h
  · have := wQ.j_pos q hq; dsimp only; omega
  · exact (wP.j_le p h).trans (Nat.le_add_right _ _)
  · exact Nat.add_le_add_left (wQ.j_le q hq) _
  · exact wP.ne p h
  · have := wQ.ne q hq; dsimp only; omega
  · exact wP.le p h
  · exact wQ.le q hq

theorem cv_union (cP : ConvexCosts P) (cQ : ConvexCosts Q) : ConvexCosts (P.union Q) := by
  constructor
  · intro i h1 h2
    have h2 : i ≤ P.n + Q.n := h2
    simp only [Problem.union]
    split
    · exact cP.nodes i h1 (by assumption)
    · exact cQ.nodes _ (by omega) (by omega)
  · intro p hp
    rcases List.mem_append.1 hp with h | h
    · exact cP.pairs p h
    · obtain ⟨q, hq, rfl⟩ := List.mem_map.1 h
      exact cQ.pairs q hq

end AHO
