import Verif.Props.Limits
import Verif.Props.Flow
/-!
# Merging before `calc`
-/

namespace AHO.Props
open Spec
set_option linter.unusedSectionVars false

section
variable {K : Type} [Field K] [LinearOrder K] [IsStrictOrderedRing K]

section
variable {n : Nat} {R W : Int}

theorem mxP_rev (p : Pair K) : mxP (revP p) = mxP p := by
  simp only [mxP, revP, neg_neg]
  exact max_comm _ _

theorem mnP_rev {p : Pair K} (h : ArcIn n R W p) : mnP (revP p) = mnP p := by
  refine mnP_eq ?_
  obtain ⟨⟨x, a, b, c⟩, d⟩ := exists_min h
  refine ⟨⟨-x, ?_, ?_, ?_⟩, fun y e f => ?_⟩
  · simp only [revP]; omega
  · simp only [revP]; omega
  · simp only [revP, neg_neg]; exact c
  · simp only [revP] at e f ⊢
    exact d (-y) (by omega) (by omega)

theorem mxP_mrg {p q : Pair K} (h : ArcIn n R W p) (h' : ArcIn n R W q) (hle : max p.l q.l ≤ min p.u q.u) :
    mxP (mrgP p q) ≤ mxP p + mxP q := by
  have key : ∀ x, max p.l q.l ≤ x → x ≤ min p.u q.u → p.B x + q.B x ≤ mxP p + mxP q := fun x a b =>
    add_le_add (convex_le_max h.conv (by omega) (by omega)) (convex_le_max h'.conv (by omega) (by omega))
  exact max_le (key _ le_rfl hle) (key _ hle le_rfl)

theorem mnP_mrg {p q : Pair K} (h : ArcIn n R W p) (h' : ArcIn n R W q) (hle : max p.l q.l ≤ min p.u q.u) :
    mnP p + mnP q ≤ mnP (mrgP p q) := by
  obtain ⟨⟨x, a, b, c⟩, -⟩ := exists_min (ArcIn.mrg h h' hle)
  rw [← c]
  simp only [mrgP] at a b ⊢
  exact add_le_add ((exists_min h).2 x (by omega) (by omega)) ((exists_min h').2 x (by omega) (by omega))

end

/-- C82. `all` are the limits of the pairs and those of the nodes, not merged. The three values which `calc` computes after `merge_limits` are not greater
than those which it would compute from `all`. -/
theorem C82_merge_before_calc {imax R : Int} {P : Problem K} {Mus : List (MuLimit K)} {Omegas limits all : List (OmegaLimit K)}
    (rep : Represents P Mus Omegas) (wf : WellFormed P) (cv : ConvexCosts P)
    (hR : 2 * R ≤ imax) (hp : ∀ p ∈ P.pairs, -R ≤ p.l ∧ p.u ≤ R) (hm : ∀ i, 1 ≤ i → i ≤ P.n → -R ≤ P.lo i ∧ P.hi i ≤ R)
    (hall : List.Forall₂ OmegaLimit.Is all (P.pairs ++ (List.range' 1 P.n).map fun k => ⟨k, 0, P.lo k, P.hi k, P.F k⟩))
    (hmerge : ProblemSolver.mergeLimits imax ⟨P.n, Mus, Omegas⟩ = .ok (some limits)) :
    ∃ validCostMax M U validCostMax' M' U', Returns (fun fuel => ProblemSolver.calc' imax fuel limits) (validCostMax, M, U) ∧
      Returns (fun fuel => ProblemSolver.calc' imax fuel all) (validCostMax', M', U') ∧
      validCostMax ≤ validCostMax' ∧ M ≤ M' ∧ U ≤ U' := by
  have hpi : ∀ q ∈ P.pairs, ArcIn P.n R (2 * R) q := fun q hq => by
    have := hp q hq
    exact ⟨wf.i_le q hq, wf.j_le q hq, wf.ne q hq, wf.le q hq, this.1, this.2, by omega, cv.pairs q hq⟩
  have hmi : ∀ q ∈ ProblemSolver.musP P, ArcIn P.n R (2 * R) q := fun q hq => by
    obtain ⟨k, k1, k2, rfl⟩ := ProblemSolver.mem_musP.1 hq
    have := hm k k1 k2
    exact ⟨k2, Nat.zero_le _, by dsimp only; omega, wf.nodes k k1 k2, this.1, this.2, by dsimp only; omega, cv.nodes k k1 k2⟩
  have hai : ∀ q ∈ P.pairs ++ ProblemSolver.musP P, ArcIn P.n R (2 * R) q := fun q hq => by
    rcases List.mem_append.1 hq with h | h
    · exact hpi q h
    · exact hmi q h
  -- the values of `all`
  have calcR : ∀ {ls : List (OmegaLimit K)} {ps : List (Pair K)}, List.Forall₂ OmegaLimit.Is ls ps → (∀ p ∈ ps, ArcIn P.n R (2 * R) p) →
      ∃ U, Returns (fun fuel => ProblemSolver.calc' imax fuel ls)
          (0 + (ps.map mxP).sum, 1 + (ps.map fun p => mxP p - mnP p).sum, U) ∧
        0 ≤ U ∧ (∀ p ∈ ps, p.u - p.l ≤ U) ∧ (U = 0 ∨ ∃ p ∈ ps, U = p.u - p.l) := fun {ls ps} h1 h2 => by
    obtain ⟨U, e1, e2⟩ := ProblemSolver.calcLoop_spec (imax := imax) (fuel := Flow.bits R + 1) hR (by omega) ls ps 0 1 0 h1 h2
    exact ⟨U, returns_of_eval _ e1 fun _ _ h => ProblemSolver.calcLoop_le h _ _, e2⟩
  obtain ⟨U', r1, r2, r3, -⟩ := calcR hall hai
  by_cases hR0 : R < 0
  · -- no ranges at all
    have hp0 : P.pairs = [] := List.eq_nil_iff_forall_not_mem.2 fun q hq => by
      have := hp q hq; have := wf.le q hq; omega
    have hn0 : P.n = 0 := by
      by_contra h
      have := hm 1 le_rfl (by omega); have := wf.nodes 1 le_rfl (by omega); omega
    have ho : Omegas = [] := by
      have := rep.omegas
      rw [hp0] at this
      cases this; rfl
    have hl : limits = [] := by
      rw [hn0, ho] at hmerge
      have h2 : Except.ok (some []) = (Except.ok (some limits) : Res (Option (List (OmegaLimit K)))) := hmerge
      cases h2; rfl
    have ha : all = [] := by
      rw [hp0, hn0] at hall
      cases hall; rfl
    subst hl ha
    exact ⟨_, _, _, _, _, _, r1, r1, le_rfl, le_rfl, le_rfl⟩
  -- the values after merging
  have hG : ProblemSolver.MergeInv R fun p : Pair K => ArcIn P.n R (2 * R) p ∧ p.u - p.l ≤ U' :=
    ⟨fun h => h.1.ne, fun h => h.1.le, fun h => h.1.lo, fun h => h.1.hi,
      fun {p} h => ⟨ArcIn.rev h.1, by simp only [revP]; omega⟩, fun {p q} h h' hle => ⟨ArcIn.mrg h.1 h'.1 hle, by simp only [mrgP]; omega⟩⟩
  have hg1 : ∀ q ∈ P.pairs, ArcIn P.n R (2 * R) q ∧ q.u - q.l ≤ U' := fun q hq => ⟨hpi q hq, r3 q (List.mem_append_left _ hq)⟩
  obtain ⟨es, e1, e2⟩ := ProblemSolver.musEdges_spec rep.len rep.mus P.n 1 le_rfl (by omega)
  have main : ∀ φ : Pair K → K, (∀ {p}, ArcIn P.n R (2 * R) p ∧ p.u - p.l ≤ U' → φ (revP p) = φ p) →
      (∀ {p q}, ArcIn P.n R (2 * R) p ∧ p.u - p.l ≤ U' → ArcIn P.n R (2 * R) q ∧ q.u - q.l ≤ U' → max p.l q.l ≤ min p.u q.u →
        φ (mrgP p q) ≤ φ p + φ q) →
      ∃ ps, List.Forall₂ OmegaLimit.Is limits ps ∧ (∀ p ∈ ps, ArcIn P.n R (2 * R) p ∧ p.u - p.l ≤ U') ∧
        (ps.map φ).sum ≤ ((P.pairs ++ ProblemSolver.musP P).map φ).sum := by
    intro φ f1 f2
    rcases ProblemSolver.mergeLoop_sum (imax := imax) hG (by omega) f1 f2 Omegas P.pairs [] [] rep.omegas .nil .nil hg1 (by simp) with
      ⟨m1, -⟩ | ⟨mp, ps', m1, m2, m3, m4, m5, m6, -⟩
    · unfold ProblemSolver.mergeLimits at hmerge
      dsimp only at hmerge
      rw [m1, ok_bind] at hmerge
      cases hmerge
    · unfold ProblemSolver.mergeLimits at hmerge
      dsimp only at hmerge
      rw [m1, ok_bind] at hmerge
      dsimp only at hmerge
      rw [e1, ok_bind] at hmerge
      injection hmerge with hmerge
      injection hmerge with hmerge
      refine ⟨ps' ++ ProblemSolver.musP P, ?_, ?_, ?_⟩
      · rw [← hmerge]
        refine List.rel_append ?_ e2
        rw [List.forall₂_map_left_iff]
        exact m2.imp fun _ _ h => h.1
      · intro q hq
        rcases List.mem_append.1 hq with h | h
        · exact m4 q h
        · exact ⟨hmi q h, r3 q (List.mem_append_right _ h)⟩
      · simp only [List.map_append, List.sum_append]
        have : (ps'.map φ).sum ≤ (P.pairs.map φ).sum := by simpa using m6
        linarith
  obtain ⟨ps, a1, a2, a3⟩ := main mxP (fun _ => mxP_rev _) fun h h' hle => mxP_mrg h.1 h'.1 hle
  obtain ⟨ps₂, b1, b2, b3⟩ := main (fun p => mxP p - mnP p) (fun h => by rw [mxP_rev, mnP_rev h.1]) fun h h' hle => by
    have := mxP_mrg h.1 h'.1 hle
    have := mnP_mrg h.1 h'.1 hle
    linarith
  obtain ⟨U, c1, c2, -, c4⟩ := calcR a1 fun p hp => (a2 p hp).1
  obtain ⟨U₂, d1, -⟩ := calcR b1 fun p hp => (b2 p hp).1
  have hu := congrArg (fun x : K × K × Int => x.2.1) (c1.unique d1)
  dsimp only at hu
  refine ⟨_, _, _, _, _, _, c1, r1, add_le_add le_rfl a3, ?_, ?_⟩
  · rw [hu]
    exact add_le_add le_rfl b3
  · rcases c4 with rfl | ⟨p, hp, rfl⟩
    · exact r2
    · exact (a2 p hp).2

/-- the limits of `exP`, not merged -/
def exAll : List (OmegaLimit ℚ) :=
  exOmegas ++ [⟨⟨-2, 3, fun x => .ok (((x : ℚ) - 1) ^ 2)⟩, 1, 0⟩, ⟨⟨0, 4, fun x => .ok (((x : ℚ) - 2) ^ 2)⟩, 2, 0⟩]

/-- C82 applies to `exP`: the two limits of its pair of nodes become one. `valid_cost_max` falls from 84 to 53, `M` from 93 to 46. -/
example : ∃ limits, ProblemSolver.mergeLimits (2 ^ 31 - 1) ⟨exP.n, exMus, exOmegas⟩ = .ok (some limits) ∧
    (∀ p ∈ exP.pairs, -6 ≤ p.l ∧ p.u ≤ 6) ∧ (∀ i, 1 ≤ i → i ≤ exP.n → -6 ≤ exP.lo i ∧ exP.hi i ≤ 6) ∧
    List.Forall₂ OmegaLimit.Is exAll (exP.pairs ++ (List.range' 1 exP.n).map fun k => ⟨k, 0, exP.lo k, exP.hi k, exP.F k⟩) ∧
    Returns (fun fuel => ProblemSolver.calc' (2 ^ 31 - 1) fuel limits) (53, 46, 5) ∧
    Returns (fun fuel => ProblemSolver.calc' (2 ^ 31 - 1) fuel exAll) (84, 93, 5) := by
  refine ⟨_, rfl, by simp [exP], ?_, List.rel_append ex_rep.omegas (.cons ⟨rfl, rfl, rfl, rfl, fun _ _ _ => ?_⟩
      (.cons ⟨rfl, rfl, rfl, rfl, fun _ _ _ => ?_⟩ .nil)),
    returns_of_eval 20 (by decide +kernel) fun _ _ h => ProblemSolver.calcLoop_le h _ _,
    returns_of_eval 20 (by decide +kernel) fun _ _ h => ProblemSolver.calcLoop_le h _ _⟩
  · intro i h1 h2
    have h3 : i ≤ 2 := h2
    interval_cases i <;> simp [exP]
  · simp [exP]
  · simp [exP]

end
end AHO.Props
