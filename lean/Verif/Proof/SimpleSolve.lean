import Verif.Proof.SimpleSplit
/-!
# `SimpleSolver::Solve`
-/

namespace AHO.SimpleSolver
open Spec
open CS (refFuel refRounds csFuel eps0 minCostC_spec weak_duality PhaseSteps)
set_option linter.unusedSectionVars false

variable {K : Type} [Field K] [LinearOrder K] [IsStrictOrderedRing K]
variable {n : Nat} {R W imax : Int} {fuel : Nat}

/-- The local variables after the costs `ps` have been split. -/
structure Inv (n : Nat) (R : Int) (ps : List (Pair K)) (s : State K) : Prop where
  parts : List.Forall₂ (fun (x : Fn K × Int × Int) (p : Pair K) => x.1.Is p.B p.l p.u ∧ x.2.1 = p.l ∧ x.2.2 = p.u) s.parts ps
  slack : ∀ π, slackCost (s.edge.map InputEdge.arc) π = penalised (bigM : K) ps π - (ps.map mnP).sum
  u_le : ∀ a ∈ s.edge, a.u ≤ n
  v_le : ∀ a ∈ s.edge, a.v ≤ n
  ne : ∀ a ∈ s.edge, a.u ≠ a.v
  nonneg : ∀ a ∈ s.edge, 0 ≤ a.capacity
  cost : ∀ a ∈ s.edge, -R ≤ a.cost ∧ a.cost ≤ R
  opp : ∀ a ∈ s.edge, ∃ b ∈ s.edge, -a.cost ≤ b.cost
  len : (s.edge.length : Int) ≤ 2 * (2 * R + 1) * ps.length

theorem Inv.add {ps : List (Pair K)} {s : State K} (I : Inv n R ps s) {p : Pair K} (hp : ArcIn n R W p) {A : List (InputEdge K)}
    (hA : Parts p A) {f : Fn K} (hf : f.Is p.B p.l p.u) (mx : K) :
    Inv n R (ps ++ [p]) ⟨s.parts ++ [(f, p.l, p.u)], s.edge ++ A, mx⟩ := by
  have hm : ∀ {a}, a ∈ s.edge ++ A → a ∈ s.edge ∨ a ∈ A := fun h => List.mem_append.1 h
  have h1 := hp.lo
  have h2 := hp.hi
  refine ⟨?_, fun π => ?_, fun a ha => ?_, fun a ha => ?_, fun a ha => ?_, fun a ha => ?_, fun a ha => ?_, fun a ha => ?_, ?_⟩
  · exact List.rel_append I.parts (.cons ⟨hf, rfl, rfl⟩ .nil)
  · dsimp only
    rw [List.map_append, slackCost_append, I.slack, hA.slack]
    unfold penalised
    simp only [List.map_append, List.sum_append, List.map_cons, List.map_nil, List.sum_cons, List.sum_nil]
    ring
  · rcases hm ha with h | h
    · exact I.u_le a h
    · rcases hA.ends a h with ⟨e1, e2⟩ | ⟨e1, e2⟩
      · rw [e1]; exact hp.i_le
      · rw [e1]; exact hp.j_le
  · rcases hm ha with h | h
    · exact I.v_le a h
    · rcases hA.ends a h with ⟨e1, e2⟩ | ⟨e1, e2⟩
      · rw [e2]; exact hp.j_le
      · rw [e2]; exact hp.i_le
  · rcases hm ha with h | h
    · exact I.ne a h
    · rcases hA.ends a h with ⟨e1, e2⟩ | ⟨e1, e2⟩
      · rw [e1, e2]; exact hp.ne
      · rw [e1, e2]; exact hp.ne.symm
  · rcases hm ha with h | h
    · exact I.nonneg a h
    · exact hA.nonneg a h
  · rcases hm ha with h | h
    · exact I.cost a h
    · rcases hA.cost a h with h | h <;> omega
  · rcases hm ha with h | h
    · obtain ⟨b, b1, b2⟩ := I.opp a h
      exact ⟨b, List.mem_append_left _ b1, b2⟩
    · obtain ⟨b, b1, b2⟩ := hA.opp a h
      exact ⟨b, List.mem_append_right _ b1, b2⟩
  · have h3 := I.len
    have h4 := hA.len
    simp only [List.length_append, List.length_cons, List.length_nil]
    push_cast
    rw [Int.mul_add, Int.mul_one]
    omega

theorem edgeOK_of {p : Pair K} (hp : ArcIn n R W p) (hs : mxP p - mnP p ≤ bigM) : EdgeOK 1 (bigM : K) p.l p.u p.B := by
  have hm := exists_min hp
  refine ⟨by norm_num, hp.le, hp.conv, fun x h1 h2 => ?_, bigM_pos.le⟩
  have a1 := convex_le_max hp.conv (x := x) h1 (by omega)
  have a2 := convex_le_max hp.conv (x := x + 1) (by omega) h2
  have b1 := hm.2 x h1 (by omega)
  have b2 := hm.2 (x + 1) (by omega) h2
  unfold mxP at hs
  rw [abs_le]
  constructor <;> linarith

section
variable {P : Problem K} {Mus : List (MuLimit K)}

theorem nodes_spec (hlen : Mus.length = P.n + 1)
    (hmus : ∀ (i : Nat) (h : i < Mus.length), 1 ≤ i → Mus[i].Is (P.lo i) (P.hi i) (P.F i))
    (g : ∀ p ∈ ProblemSolver.musP P, ArcIn P.n R W p) (hs : ∀ p ∈ ProblemSolver.musP P, mxP p - mnP p ≤ bigM) (hR : 2 * R + 1 ≤ imax)
    (hf : 2 * R + 1 < fuel) :
    ∀ (cnt i : Nat) (ps : List (Pair K)) (s : State K), 1 ≤ i → i + cnt = P.n + 1 → Inv P.n R ps s →
      ∃ s', nodes imax fuel Mus cnt i s = .ok (some s') ∧
        Inv P.n R (ps ++ (List.range' i cnt).map fun k => ⟨k, 0, P.lo k, P.hi k, P.F k⟩) s' ∧
        s'.mx = s.mx + (((List.range' i cnt).map fun k => (⟨k, 0, P.lo k, P.hi k, P.F k⟩ : Pair K)).map mxP).sum := by
  intro cnt
  induction cnt with
  | zero => intro i ps s _ _ I; exact ⟨s, rfl, by simpa using I, by simp⟩
  | succ cnt ih =>
    intro i ps s hi hcnt I
    have hm := hmus i (by omega) hi
    have hmem : (⟨i, 0, P.lo i, P.hi i, P.F i⟩ : Pair K) ∈ ProblemSolver.musP P := ProblemSolver.mem_musP.2 ⟨i, hi, by omega, rfl⟩
    have hp := g _ hmem
    have h1 := hp.le
    have h2 := hp.lo
    have h3 := hp.hi
    dsimp only at h1 h2 h3
    unfold nodes
    rw [listRd_ok (by omega), ok_bind]
    rw [if_neg (by rw [hm.l, hm.u]; omega), hm.l, hm.u, hm.fn _ le_rfl h1, ok_bind, hm.fn _ h1 le_rfl, ok_bind,
      split_spec (g := P.F i) h1 hm.fn (by omega) (by omega) (by omega), ok_bind]
    obtain ⟨s', e1, I1, m1⟩ := ih (i + 1) (ps ++ [⟨i, 0, P.lo i, P.hi i, P.F i⟩]) _ (by omega) (by omega)
      (I.add hp (parts_of _ (edgeOK_of hp (hs _ hmem)) (exists_min hp)) hm.fn _)
    refine ⟨s', e1, ?_, ?_⟩
    · rw [List.range'_succ, List.map_cons]
      rw [List.append_assoc] at I1
      exact I1
    · rw [m1, List.range'_succ, List.map_cons, List.map_cons, List.sum_cons]
      show s.mx + dmax _ _ + _ = _
      rw [dmax_eq, add_assoc]
      rfl

theorem pairs_spec (hlen : Mus.length = P.n + 1) (hmus : ∀ (i : Nat) (h : i < Mus.length), 1 ≤ i → Mus[i].Is (P.lo i) (P.hi i) (P.F i))
    (hlo : ∀ i, 1 ≤ i → i ≤ P.n → -R ≤ P.lo i ∧ P.lo i ≤ R) (hhi : ∀ i, 1 ≤ i → i ≤ P.n → -R ≤ P.hi i ∧ P.hi i ≤ R)
    (hR : 2 * R + 1 ≤ imax) (hn : (P.n : Int) + 1 ≤ imax) (hf : 2 * R + 1 < fuel) :
    ∀ (Os : List (OmegaLimit K)) (rs : List (Pair K)) (ps : List (Pair K)) (s : State K), List.Forall₂ OmegaLimit.Is Os rs →
      (∀ p ∈ rs, 1 ≤ p.i ∧ 1 ≤ p.j ∧ ArcIn P.n R (2 * R) p ∧ mxP p - mnP p ≤ bigM ∧ -R ≤ P.lo p.i - P.hi p.j) →
      Inv P.n R ps s →
      ∃ qs s', pairs imax fuel Mus Os s = .ok (some s') ∧ Inv P.n R (ps ++ qs) s' ∧ s'.mx = s.mx + (rs.map mxP).sum ∧
        List.Forall₂ (ProblemSolver.Covers P) rs qs ∧
        List.Forall₂ (fun p q : Pair K => ArcIn P.n R (2 * R) q ∧ mnP q = mnP p ∧ mxP q ≤ mxP p) rs qs := by
  intro Os
  induction Os with
  | nil =>
    intro rs ps s h _ I
    cases h
    exact ⟨[], s, rfl, by simpa using I, by simp, .nil, .nil⟩
  | cons e Os ih =>
    intro rs ps s h g I
    cases h with
    | cons he hrest =>
      rename_i p rs
      obtain ⟨g1, g2, g3, g4, g5⟩ := g p (by simp)
      have p1 := g3.le
      have p2 := g3.lo
      have p3 := g3.hi
      have p4 := g3.i_le
      have p5 := g3.j_le
      have b1 := hlo p.i g1 p4
      have b2 := hhi p.j g2 p5
      obtain ⟨g', c1, c2, c3, c4⟩ := suffixMin_spec (imax := imax) (e := e) (g := p.B) (by rw [he.l, he.u]; exact p1)
        (by rw [he.l]; omega) (by rw [he.u]; omega) (by rw [he.l, he.u]; omega) (by rw [he.l, he.u]; exact he.fn)
        (by rw [he.l, he.u]; exact g3.conv)
      rw [he.l, he.u] at c1 c2 c3
      rw [he.u] at c4
      have hm := exists_min g3
      set l' := min p.l (P.lo p.i - P.hi p.j) with hl'
      set q : Pair K := ⟨p.i, p.j, l', p.u, g'⟩ with hq
      have hqin : ArcIn P.n R (2 * R) q := ⟨p4, p5, g3.ne, by show l' ≤ p.u; omega, by show -R ≤ l'; omega, p3, by show p.u - l' ≤ 2 * R; omega, c4 l'⟩
      have hmn : mnP q = mnP p := by
        refine mnP_eq ⟨?_, fun x x1 x2 => ?_⟩
        · obtain ⟨⟨x, x1, x2, x3⟩, hx⟩ := hm
          obtain ⟨y, y1, y2, y3, y4⟩ := c2 x x2
          refine ⟨x, by show l' ≤ x; omega, x2, le_antisymm ?_ ?_⟩
          · rw [← x3]; exact c3 x x le_rfl x1 x2
          · show _ ≤ g' x
            rw [y4]; exact hx y y1 y3
        · obtain ⟨y, y1, y2, y3, y4⟩ := c2 x x2
          show _ ≤ g' x
          rw [y4]; exact hm.2 y y1 y3
      have hmx : mxP q ≤ mxP p := by
        have key : ∀ x, x ≤ p.u → g' x ≤ mxP p := by
          intro x hx
          obtain ⟨y, y1, y2, y3, y4⟩ := c2 x hx
          rw [y4]; exact convex_le_max g3.conv y1 y3
        exact max_le (key l' (by omega)) (key p.u le_rfl)
      have hpart := parts_of q (edgeOK_of hqin (by rw [hmn]; linarith)) (exists_min hqin)
      have hi : e.i < Mus.length := by rw [he.i]; omega
      have hj : e.j < Mus.length := by rw [he.j]; omega
      have hmi := hmus e.i hi (by rw [he.i]; omega)
      have hmj := hmus e.j hj (by rw [he.j]; omega)
      have hmil := hmi.l
      have hmju := hmj.u
      simp only [he.i] at hmil
      simp only [he.j] at hmju
      unfold pairs
      rw [if_neg (by rw [he.l, he.u]; omega), he.l, he.u, he.fn _ le_rfl p1, ok_bind, he.fn _ p1 le_rfl, ok_bind, listRd_ok hi, ok_bind,
        listRd_ok hj, ok_bind]
      simp only [he.i, he.j]
      rw [hmil, hmju, ck_ok (by omega) (by omega), ok_bind]
      rw [← hl', ck_ok (by omega) (by omega), ok_bind, ck_ok (by omega) (by omega), ok_bind]
      have hfn : (suffixMin imax fuel e).Is g' l' p.u := fun x _ hx => c1 fuel (by omega) x hx
      rw [split_spec (g := g') (show l' ≤ p.u by omega) hfn (by omega) (by omega) (by omega), ok_bind]
      obtain ⟨qs, s', d1, d2, d3, d4, d5⟩ := ih rs (ps ++ [q]) _ hrest (fun r hr => g r (List.mem_cons_of_mem _ hr))
        (I.add hqin hpart hfn _)
      refine ⟨q :: qs, s', d1, ?_, ?_, .cons ⟨rfl, rfl, by show l' ≤ _; omega, rfl, c2, c3⟩ d4, .cons ⟨hqin, hmn, hmx⟩ d5⟩
      · rw [List.append_assoc] at d2
        exact d2
      · rw [d3, List.map_cons, List.sum_cons]
        show s.mx + dmax _ _ + _ = _
        rw [dmax_eq, add_assoc]
        rfl

theorem addMinima_spec (hR : 2 * R + 1 ≤ imax) (hf : 2 * R + 1 < fuel) : ∀ (parts : List (Fn K × Int × Int)) (ps : List (Pair K)) (res : K),
    List.Forall₂ (fun (x : Fn K × Int × Int) (p : Pair K) => x.1.Is p.B p.l p.u ∧ x.2.1 = p.l ∧ x.2.2 = p.u) parts ps →
    (∀ p ∈ ps, ArcIn n R W p) → addMinima imax fuel parts res = .ok (res + (ps.map mnP).sum) := by
  intro parts
  induction parts with
  | nil => intro ps res h _; cases h; simp [addMinima]
  | cons x parts ih =>
    intro ps res h g
    cases h with
    | cons hx hrest =>
      rename_i p ps
      obtain ⟨f, l, r⟩ := x
      obtain ⟨h1, h2, h3⟩ := hx
      dsimp only at h1 h2 h3
      subst h2 h3
      have hp := g p (by simp)
      have a1 := hp.le
      have a2 := hp.lo
      have a3 := hp.hi
      obtain ⟨m, e1, e2⟩ := ternary_spec (imax := imax) (fuel := fuel) (by omega) a1 (by omega) (by omega) (by omega) h1 hp.conv
      unfold addMinima
      rw [e1, ok_bind, ih ps _ hrest fun q hq => g q (List.mem_cons_of_mem _ hq)]
      simp only [List.map_cons, List.sum_cons]
      rw [show mnP p = m from mnP_eq e2, add_assoc]

/-- The largest minus the least cost, summed. -/
theorem spread_sum (sp : Spread P (bigM : K)) (h0 : ∀ p ∈ ProblemSolver.musP P ++ P.pairs, ArcIn n R W p) :
    ((ProblemSolver.musP P ++ P.pairs).map mxP).sum < ((ProblemSolver.musP P ++ P.pairs).map mnP).sum + bigM := by
  have h1 : ∀ p : Pair K, ∃ x y, p ∈ ProblemSolver.musP P ++ P.pairs → (p.l ≤ x ∧ x ≤ p.u ∧ p.B x = mxP p) ∧ (p.l ≤ y ∧ y ≤ p.u ∧ p.B y = mnP p) := by
    intro p
    by_cases hp : p ∈ ProblemSolver.musP P ++ P.pairs
    · obtain ⟨y, y1, y2, y3⟩ := (exists_min (h0 p hp)).1
      have := (h0 p hp).le
      rcases max_choice (p.B p.l) (p.B p.u) with h | h
      · exact ⟨p.l, y, fun _ => ⟨⟨le_rfl, this, h.symm⟩, y1, y2, y3⟩⟩
      · exact ⟨p.u, y, fun _ => ⟨⟨this, le_rfl, h.symm⟩, y1, y2, y3⟩⟩
    · exact ⟨0, 0, fun h => absurd h hp⟩
  choose X Y h1 using h1
  have key : ∀ (Z : Pair K → Int) (v : Pair K → K), (∀ p ∈ ProblemSolver.musP P ++ P.pairs, p.l ≤ Z p ∧ Z p ≤ p.u ∧ p.B (Z p) = v p) →
      ∃ μ ω, InRanges P μ ω ∧ cost P μ ω = ((ProblemSolver.musP P ++ P.pairs).map v).sum := by
    intro Z v h
    have hn : ∀ i, 1 ≤ i → i ≤ P.n → (⟨i, 0, P.lo i, P.hi i, P.F i⟩ : Pair K) ∈ ProblemSolver.musP P ++ P.pairs := fun i h1 h2 =>
      List.mem_append_left _ (ProblemSolver.mem_musP.2 ⟨i, h1, h2, rfl⟩)
    refine ⟨fun i => Z ⟨i, 0, P.lo i, P.hi i, P.F i⟩, fun k => if hk : k < P.pairs.length then Z P.pairs[k] else 0, ⟨fun i h1 h2 => ?_, fun k hk => ?_⟩, ?_⟩
    · have := h _ (hn i h1 h2)
      exact ⟨this.1, this.2.1⟩
    · have := h _ (List.mem_append_right _ (List.getElem_mem hk))
      simp only [hk, dite_true]
      exact ⟨this.1, this.2.1⟩
    · unfold cost
      rw [List.map_append, List.sum_append]
      congr 1
      · have e : ((ProblemSolver.musP P).map v).sum = ∑ i ∈ Finset.Icc 1 P.n, v ⟨i, 0, P.lo i, P.hi i, P.F i⟩ := by
          unfold ProblemSolver.musP
          rw [List.map_map]
          rfl
        rw [e]
        refine Finset.sum_congr rfl fun i hi => ?_
        rw [Finset.mem_Icc] at hi
        exact (h _ (hn i hi.1 hi.2)).2.2
      · rw [← Fin.sum_univ_fun_getElem]
        refine Finset.sum_congr rfl fun k _ => ?_
        have := h _ (List.mem_append_right _ (List.getElem_mem k.2))
        simp only [k.2, dite_true]
        exact this.2.2
  obtain ⟨μ, ω, a1, a2⟩ := key X mxP fun p hp => (h1 p hp).1
  obtain ⟨μ', ω', b1, b2⟩ := key Y mnP fun p hp => (h1 p hp).2
  have := sp μ ω μ' ω' a1 b1
  rw [a2, b2] at this
  linarith

/-- Steps that suffice -/
def solveFuel (n m : Nat) (R : Int) : Nat :=
  max (2 * R + 2).toNat (max (refFuel (n + 1) (2 * (2 * (2 * R + 1) * ((n : Int) + m)).toNat)) (((R + 1).toNat * (n + 1)).size + 1))

/-- `SimpleSolver::Solve` returns the optimum; the steps of `MinCost` in it. -/
theorem solve_full {Omegas : List (OmegaLimit K)} (rep : Represents P Mus Omegas) (wf : WellFormed P) (cv : ConvexCosts P)
    (wi : Within P R) (hl : ∀ p ∈ P.pairs, -R ≤ p.l) (sp : Spread P (bigM : K)) (hR0 : 0 ≤ R) (hR : 2 * R + 1 ≤ imax)
    (hn : (P.n : Int) + 1 ≤ imax) (hE : 4 * (2 * R + 1) * ((P.n : Int) + P.pairs.length) ≤ imax)
    (hf : solveFuel P.n P.pairs.length R ≤ fuel) :
    (∃ r, solve imax fuel P.n Mus Omegas = .ok r ∧ Outcome (ProblemSolver.problemCosts P) r) ∧
    ∃ s1 s2 c x, nodes imax fuel Mus P.n 1 ⟨[], [], 0⟩ = .ok (some s1) ∧ pairs imax fuel Mus Omegas s1 = .ok (some s2) ∧
      CostScaling.minCostC imax fuel (P.n + 1) s2.edge = .ok (c, x) ∧
      PhaseSteps (P.n + 1) (2 * s2.edge.length) ((eps0 s2.edge).toNat * (P.n + 1)).size c ∧
      (s2.edge.length : Int) ≤ 2 * (2 * R + 1) * ((P.n : Int) + P.pairs.length) ∧ eps0 s2.edge ≤ R + 1 := by
  unfold solveFuel at hf
  have hf1 : 2 * R + 1 < (fuel : Int) := by omega
  have hlo : ∀ i, 1 ≤ i → i ≤ P.n → -R ≤ P.lo i ∧ P.lo i ≤ R := fun i h1 h2 =>
    ⟨wi.lo i h1 h2, (wf.nodes i h1 h2).trans (wi.hi i h1 h2)⟩
  have hhi : ∀ i, 1 ≤ i → i ≤ P.n → -R ≤ P.hi i ∧ P.hi i ≤ R := fun i h1 h2 =>
    ⟨(wi.lo i h1 h2).trans (wf.nodes i h1 h2), wi.hi i h1 h2⟩
  have g0 : ∀ p ∈ ProblemSolver.musP P, ArcIn P.n R (2 * R) p := by
    intro p hp
    obtain ⟨k, k1, k2, rfl⟩ := ProblemSolver.mem_musP.1 hp
    have h1 := hlo k k1 k2
    have h2 := hhi k k1 k2
    exact ⟨k2, Nat.zero_le _, by show k ≠ 0; omega, wf.nodes k k1 k2, h1.1, h2.2, by show P.hi k - P.lo k ≤ _; omega, cv.nodes k k1 k2⟩
  have g1 : ∀ p ∈ P.pairs, ArcIn P.n R (2 * R) p := by
    intro p hp
    have h1 := hl p hp
    have h2 := wi.u p hp
    exact ⟨wf.i_le p hp, wf.j_le p hp, wf.ne p hp, wf.le p hp, h1, h2, by omega, cv.pairs p hp⟩
  have g : ∀ p ∈ ProblemSolver.musP P ++ P.pairs, ArcIn P.n R (2 * R) p := fun p hp => (List.mem_append.1 hp).elim (g0 p) (g1 p)
  have hsum := spread_sum sp g
  have hone : ∀ p ∈ ProblemSolver.musP P ++ P.pairs, mxP p - mnP p ≤ bigM := by
    intro p hp
    have h1 := le_sum_map (f := fun p : Pair K => mxP p - mnP p) (fun q hq => sub_nonneg.2 (mn_le_mx (g q hq))) p hp
    have h2 : ((ProblemSolver.musP P ++ P.pairs).map fun p : Pair K => mxP p - mnP p).sum =
        ((ProblemSolver.musP P ++ P.pairs).map mxP).sum - ((ProblemSolver.musP P ++ P.pairs).map mnP).sum := by
      generalize ProblemSolver.musP P ++ P.pairs = L
      induction L with
      | nil => simp
      | cons a L ih => simp only [List.map_cons, List.sum_cons, ih]; ring
    rw [h2] at h1
    linarith
  have I0 : Inv P.n R ([] : List (Pair K)) (⟨[], [], 0⟩ : State K) := by
    refine ⟨.nil, fun π => by simp [slackCost, penalised], ?_, ?_, ?_, ?_, ?_, ?_, by simp⟩ <;> simp
  obtain ⟨s1, e1, I1, m1⟩ := nodes_spec (imax := imax) (fuel := fuel) (W := 2 * R) rep.len rep.mus g0
    (fun p hp => hone p (List.mem_append_left _ hp)) hR hf1 P.n 1 [] ⟨[], [], 0⟩ le_rfl (by omega) I0
  obtain ⟨qs, s2, e2, I2, m2, c1, c2⟩ := pairs_spec (imax := imax) (fuel := fuel) rep.len rep.mus hlo hhi hR hn hf1 Omegas P.pairs _ s1
    rep.omegas (fun p hp => ⟨wf.i_pos p hp, wf.j_pos p hp, g1 p hp, hone p (List.mem_append_right _ hp), wi.diff p hp⟩) I1
  rw [show ((List.range' 1 P.n).map fun k => (⟨k, 0, P.lo k, P.hi k, P.F k⟩ : Pair K)) = ProblemSolver.musP P from rfl] at I2 m1
  rw [List.nil_append] at I2
  rw [zero_add] at m1
  have hlen := c1.length_eq
  have hlenm : (ProblemSolver.musP P).length = P.n := by simp [ProblemSolver.musP]
  have g2 : ∀ q ∈ qs, ArcIn P.n R (2 * R) q := by
    intro q hq
    obtain ⟨k, hk, rfl⟩ := List.getElem_of_mem hq
    exact ((List.forall₂_iff_get.1 c2).2 k (by omega) hk).1
  have hmn : (qs.map mnP).sum = (P.pairs.map mnP).sum := by
    clear e2 I2 m2 c1 hlen g2
    generalize P.pairs = L at c2
    induction c2 with
    | nil => rfl
    | cons h _ ih => simp only [List.map_cons, List.sum_cons, h.2.1, ih]
  have hmx : (qs.map mxP).sum ≤ (P.pairs.map mxP).sum := by
    clear e2 I2 m2 c1 hlen g2 hmn
    generalize P.pairs = L at c2
    induction c2 with
    | nil => exact le_rfl
    | cons h _ ih => simp only [List.map_cons, List.sum_cons]; exact add_le_add h.2.2 ih
  have gall : ∀ p ∈ ProblemSolver.musP P ++ qs, ArcIn P.n R (2 * R) p := fun p hp => (List.mem_append.1 hp).elim (g0 p) (g2 p)
  have hEl := I2.len
  rw [List.length_append, hlenm, ← hlen] at hEl
  push_cast at hEl
  set T := 2 * (2 * R + 1) * ((P.n : Int) + P.pairs.length) with hT
  have hE' : 2 * T ≤ imax := by rw [hT]; convert hE using 1; ring
  have heps : eps0 s2.edge ≤ R + 1 := by
    have : ∀ (L : List (InputEdge K)) (a : Int), a ≤ R + 1 → (∀ e ∈ L, e.cost ≤ R) → L.foldl (fun a e => max a e.cost) a ≤ R + 1 := by
      intro L
      induction L with
      | nil => exact fun _ h _ => h
      | cons x L ih =>
        intro a h h'
        have := h' x (by simp)
        exact ih _ (max_le h (by omega)) fun e he => h' e (List.mem_cons_of_mem _ he)
    exact this s2.edge 1 (by omega) fun a ha => (I2.cost a ha).2
  have hcs : csFuel s2.edge (P.n + 1) ≤ fuel := by
    refine le_trans ?_ ((le_max_right _ _).trans hf)
    unfold csFuel
    refine max_le_max ?_ ?_
    · unfold refFuel refRounds
      have : 2 * s2.edge.length ≤ 2 * T.toNat := by omega
      gcongr
    · have : (eps0 s2.edge).toNat ≤ (R + 1).toNat := by omega
      exact Nat.succ_le_succ (Nat.size_le_size (Nat.mul_le_mul_right _ this))
  obtain ⟨c, v, f, π, e3C, e4, e5, e6, hsteps⟩ := minCostC_spec (imax := imax) (fuel := fuel) (n := P.n + 1) (arcs := s2.edge)
    (fun a ha => by have := I2.u_le a ha; omega) (fun a ha => by have := I2.v_le a ha; omega) I2.ne I2.nonneg
    (fun a ha => .inr (.inr (I2.opp a ha))) (by omega) (fun a ha => by have := (I2.cost a ha).1; omega)
    (fun a ha => by have := (I2.cost a ha).2; omega) hcs
  have e3 := (CostScaling.minCostC_er _ _ _ _).to_ok e3C
  refine ⟨?_, s1, s2, c, _, e1, e2, e3C, hsteps, hEl, heps⟩
  have e7 := addMinima_spec (imax := imax) (fuel := fuel) (n := P.n) (W := 2 * R) hR hf1 s2.parts _ v I2.parts gall
  refine ⟨if s2.mx < v + ((ProblemSolver.musP P ++ qs).map mnP).sum then none else some (v + ((ProblemSolver.musP P ++ qs).map mnP).sum), ?_, ?_⟩
  · unfold solve
    rw [e1, ok_bind]
    dsimp only
    rw [e2, ok_bind]
    dsimp only
    rw [ck_ok (by omega) (by omega), ok_bind, show ((P.n : Int) + 1).toNat = P.n + 1 by omega, e3, ok_bind]
    dsimp only
    rw [e7, ok_bind]
    split <;> rfl
  · refine ProblemSolver.outcome_relaxed c1 wf ?_
    have : costs (qs ++ ProblemSolver.musP P) = costs (ProblemSolver.musP P ++ qs) := by
      ext w
      simp only [costs, Set.mem_ofPred_eq, arcsFeasible_append, arcsCost, List.map_append, List.sum_append]
      constructor <;> rintro ⟨π, ⟨h1, h2⟩, h3⟩ <;> exact ⟨π, ⟨h2, h1⟩, by rw [add_comm, h3]⟩
    rw [this]
    refine outcome_of_penalty gall (M := bigM) bigM_pos.le ?_ ?_ ⟨π, ?_⟩ fun π' => ?_
    · rw [m2, m1]
      unfold vcm
      rw [List.map_append, List.sum_append]
      exact add_le_add_right hmx _
    · rw [m2, m1]
      simp only [List.map_append, List.sum_append] at hsum ⊢
      rw [hmn]
      exact hsum
    · rw [← e6, I2.slack]; ring
    · have h1 := weak_duality e4 π'
      rw [e5, neg_neg, I2.slack] at h1
      linarith

/-- `SimpleSolver::Solve` returns the optimum. -/
theorem solve_spec {Omegas : List (OmegaLimit K)} (rep : Represents P Mus Omegas) (wf : WellFormed P) (cv : ConvexCosts P)
    (wi : Within P R) (hl : ∀ p ∈ P.pairs, -R ≤ p.l) (sp : Spread P (bigM : K)) (hR0 : 0 ≤ R) (hR : 2 * R + 1 ≤ imax)
    (hn : (P.n : Int) + 1 ≤ imax) (hE : 4 * (2 * R + 1) * ((P.n : Int) + P.pairs.length) ≤ imax)
    (hf : solveFuel P.n P.pairs.length R ≤ fuel) :
    ∃ r, solve imax fuel P.n Mus Omegas = .ok r ∧ Outcome (ProblemSolver.problemCosts P) r :=
  (solve_full rep wf cv wi hl sp hR0 hR hn hE hf).1

end
end AHO.SimpleSolver
