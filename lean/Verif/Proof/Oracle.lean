import Verif.Model.Oracle
import Verif.Proof.Solve
import Verif.Proof.Mono
/-!
# The brute-force oracle computes the optimum
-/

namespace AHO.Oracle
open Spec

variable {K : Type} [Field K] [LinearOrder K] [IsStrictOrderedRing K]
variable {imax R : Int} {P : Problem K} {fuel : Nat}

omit [Field K] [IsStrictOrderedRing K] in
theorem outcome_minRet {S : Set K} {r : Option K} (h : Outcome S r) (s : K) : Outcome (S ∪ {s}) (minRet r s) := by
  refine .inr ?_
  rcases h with ⟨rfl, rfl⟩ | ⟨v, rfl, h1, h2⟩
  · refine ⟨s, rfl, by simp, ?_⟩
    rintro w (hw | hw)
    · exact hw.elim
    · rw [Set.mem_singleton_iff] at hw; rw [hw]
  · refine ⟨_, rfl, ?_⟩
    split
    · rename_i hlt
      refine ⟨by simp, ?_⟩
      rintro w (hw | hw)
      · exact hlt.le.trans (h2 hw)
      · rw [Set.mem_singleton_iff] at hw; rw [hw]
    · rename_i hlt
      refine ⟨.inl h1, ?_⟩
      rintro w (hw | hw)
      · exact h2 hw
      · rw [Set.mem_singleton_iff] at hw; rw [hw]; exact not_lt.1 hlt

/-- the pairs after `pre_processing`; the lower end of the range is not used by the oracle -/
theorem preAll_spec (hf : Flow.bits imax < fuel) : ∀ (Os : List (OmegaLimit K)) (ps : List (Pair K)),
    List.Forall₂ OmegaLimit.Is Os ps →
    (∀ p ∈ ps, p.l ≤ p.u ∧ -imax - 1 ≤ p.l ∧ p.u ≤ imax ∧ p.u - p.l ≤ imax ∧ Valley p.B p.l p.u) →
    ∃ Os' qs, preAll imax fuel Os = .ok Os' ∧ List.Forall₂ (ProblemSolver.Relaxed P) ps qs ∧
      List.Forall₂ (fun (o : OmegaLimit K) (q : Pair K) => o.i = q.i ∧ o.j = q.j ∧ o.u = q.u ∧
        ∀ x, x ≤ q.u → o.fn x = .ok (q.B x)) Os' qs := by
  intro Os
  induction Os with
  | nil => intro ps h _; cases h; exact ⟨[], [], rfl, .nil, .nil⟩
  | cons e Os ih =>
    intro ps h g
    cases h with
    | cons he hrest =>
      rename_i p ps
      obtain ⟨g1, g2, g3, g4, g5⟩ := g p (by simp)
      obtain ⟨Os', qs, i1, i2, i3⟩ := ih ps hrest fun q hq => g q (List.mem_cons_of_mem _ hq)
      obtain ⟨fn', g', p1, p2, p3, p4, -⟩ := preProcessing_valley (imax := imax) (e := e) (g := p.B) hf
        (by rw [he.l, he.u]; exact ⟨g1, g2, g3, g4, Flow.bits_spec (by omega)⟩) (by rw [he.l, he.u]; exact he.fn)
        (by rw [he.l, he.u]; exact g5)
      rw [he.u] at p2
      rw [he.l, he.u] at p3 p4
      refine ⟨{ e with fn := fn' } :: Os', ⟨p.i, p.j, P.lo p.i - P.hi p.j, p.u, g'⟩ :: qs, ?_, .cons ⟨⟨rfl, rfl, le_rfl, rfl, p3, p4⟩, rfl⟩ i2,
        .cons ⟨he.i, he.j, he.u, p2⟩ i3⟩
      unfold preAll
      rw [p1, ok_bind, i1, ok_bind]

/-- all differences are within the upper ends -/
def Below (qs : List (Pair K)) (μ : Nat → Int) : Prop := ∀ q ∈ qs, μ q.i - μ q.j ≤ q.u

theorem leaf_spec {n : Nat} {v : Vec Int} (hv : v.size = n + 1) (hR : 2 * R ≤ imax) (hb : ∀ i, 1 ≤ i → i ≤ n → -R ≤ v.get i ∧ v.get i ≤ R)
    {S : Set K} {r : Option K} (hr : Outcome S r) :
    ∀ (Os : List (OmegaLimit K)) (qs : List (Pair K)),
    List.Forall₂ (fun (o : OmegaLimit K) (q : Pair K) => o.i = q.i ∧ o.j = q.j ∧ o.u = q.u ∧
        ∀ x, x ≤ q.u → o.fn x = .ok (q.B x)) Os qs →
    (∀ q ∈ qs, 1 ≤ q.i ∧ q.i ≤ n ∧ 1 ≤ q.j ∧ q.j ≤ n) → ∀ sum,
    ∃ r', leaf imax v r Os sum = .ok r' ∧
      Outcome (S ∪ {w | Below qs v.get ∧ w = sum + arcsCost qs v.get}) r' := by
  intro Os
  induction Os with
  | nil =>
    intro qs h _ sum
    cases h
    refine ⟨_, rfl, ?_⟩
    have : ({w | Below ([] : List (Pair K)) v.get ∧ w = sum + arcsCost [] v.get} : Set K) = {sum} := by
      ext w; simp [Below, arcsCost]
    rw [this]
    exact outcome_minRet hr sum
  | cons o Os ih =>
    intro qs h g sum
    cases h with
    | cons ho hrest =>
      rename_i q qs
      obtain ⟨g1, g2, g3, g4⟩ := g q (by simp)
      obtain ⟨o1, o2, o3, o4⟩ := ho
      unfold leaf
      rw [o1, o2, o3, Vec.rd_ok (by omega), ok_bind, Vec.rd_ok (by omega), ok_bind]
      have b1 := hb q.i g1 g2
      have b2 := hb q.j g3 g4
      rw [ck_ok (by omega) (by omega), ok_bind]
      by_cases hlt : q.u < v.get q.i - v.get q.j
      · rw [if_pos hlt]
        refine ⟨r, rfl, ?_⟩
        have : ({w | Below (q :: qs) v.get ∧ w = sum + arcsCost (q :: qs) v.get} : Set K) = ∅ := by
          ext w
          simp only [Set.mem_ofPred_eq, Set.mem_empty_iff_false, iff_false]
          rintro ⟨h, -⟩
          have := h q (by simp)
          omega
        rw [this, Set.union_empty]
        exact hr
      · rw [if_neg hlt, o4 _ (by omega), ok_bind]
        obtain ⟨r', e1, e2⟩ := ih qs hrest (fun q hq => g q (List.mem_cons_of_mem _ hq)) (sum + q.B (v.get q.i - v.get q.j))
        refine ⟨r', e1, ?_⟩
        have : ({w | Below (q :: qs) v.get ∧ w = sum + arcsCost (q :: qs) v.get} : Set K) =
            {w | Below qs v.get ∧ w = sum + q.B (v.get q.i - v.get q.j) + arcsCost qs v.get} := by
          ext w
          simp only [Set.mem_ofPred_eq, Below, List.forall_mem_cons]
          rw [arcsCost_cons, add_assoc]
          constructor
          · rintro ⟨⟨-, h⟩, h'⟩; exact ⟨h, h'⟩
          · rintro ⟨h, h'⟩; exact ⟨⟨by omega, h⟩, h'⟩
        rw [this]
        exact e2

/-- the sums which `dfs` reaches from depth `p` with the values `v` chosen so far -/
def reach (P : Problem K) (qs : List (Pair K)) (p : Nat) (v : Nat → Int) (sum : K) : Set K :=
  {w | ∃ μ : Nat → Int, (∀ i, i ≤ p → μ i = v i) ∧ (∀ i, p < i → i ≤ P.n → P.lo i ≤ μ i ∧ μ i ≤ P.hi i) ∧ Below qs μ ∧
    w = sum + ∑ i ∈ Finset.Ioc p P.n, P.F i (μ i) + arcsCost qs μ}

omit [LinearOrder K] [IsStrictOrderedRing K] in
theorem arcsCost_congr {qs : List (Pair K)} {μ ν : Nat → Int} (h : ∀ q ∈ qs, μ q.i = ν q.i ∧ μ q.j = ν q.j) :
    arcsCost qs μ = arcsCost qs ν := by
  unfold arcsCost
  congr 1
  refine List.map_congr_left fun q hq => ?_
  rw [(h q hq).1, (h q hq).2]

omit [LinearOrder K] [IsStrictOrderedRing K] in
theorem reach_leaf {qs : List (Pair K)} (g : ∀ q ∈ qs, 1 ≤ q.i ∧ q.i ≤ P.n ∧ 1 ≤ q.j ∧ q.j ≤ P.n) (v : Nat → Int) (sum : K) :
    reach P qs P.n v sum = {w | Below qs v ∧ w = sum + arcsCost qs v} := by
  ext w
  simp only [reach, Set.mem_ofPred_eq, Finset.Ioc_self, Finset.sum_empty, add_zero]
  constructor
  · rintro ⟨μ, h1, -, h3, h4⟩
    have hc : ∀ q ∈ qs, μ q.i = v q.i ∧ μ q.j = v q.j := fun q hq =>
      ⟨h1 _ (g q hq).2.1, h1 _ (g q hq).2.2.2⟩
    refine ⟨fun q hq => ?_, by rw [h4, arcsCost_congr hc]⟩
    have := h3 q hq
    rwa [(hc q hq).1, (hc q hq).2] at this
  · rintro ⟨h1, h2⟩
    exact ⟨v, fun _ _ => rfl, fun i h h' => by omega, h1, h2⟩

omit [LinearOrder K] [IsStrictOrderedRing K] in
theorem reach_congr {qs : List (Pair K)} {p : Nat} {v v' : Nat → Int} (h : ∀ i, i ≤ p → v i = v' i) (sum : K) :
    reach P qs p v sum = reach P qs p v' sum := by
  ext w
  simp only [reach, Set.mem_ofPred_eq]
  refine exists_congr fun μ => and_congr_left fun _ => forall₂_congr fun i hi => ?_
  rw [h i hi]

omit [LinearOrder K] [IsStrictOrderedRing K] in
/-- choosing the value of the next node -/
theorem reach_step {qs : List (Pair K)} {p : Nat} (hp : p < P.n) (v : Nat → Int) (sum : K) :
    reach P qs p v sum = {w | ∃ x, P.lo (p + 1) ≤ x ∧ x ≤ P.hi (p + 1) ∧
      w ∈ reach P qs (p + 1) (fun i => if i = p + 1 then x else v i) (sum + P.F (p + 1) x)} := by
  have hsum : ∀ μ : Nat → Int, ∑ i ∈ Finset.Ioc p P.n, P.F i (μ i) =
      P.F (p + 1) (μ (p + 1)) + ∑ i ∈ Finset.Ioc (p + 1) P.n, P.F i (μ i) := by
    intro μ
    have : Finset.Ioc p P.n = insert (p + 1) (Finset.Ioc (p + 1) P.n) := by
      ext i; simp only [Finset.mem_Ioc, Finset.mem_insert]; omega
    rw [this, Finset.sum_insert (by simp)]
  ext w
  simp only [reach, Set.mem_ofPred_eq]
  constructor
  · rintro ⟨μ, h1, h2, h3, h4⟩
    have h5 := h2 (p + 1) (by omega) (by omega)
    refine ⟨μ (p + 1), h5.1, h5.2, μ, fun i hi => ?_, fun i hi hi' => h2 i (by omega) hi', h3, ?_⟩
    · split
      · rename_i h; rw [h]
      · exact h1 i (by omega)
    · rw [h4, hsum, ← add_assoc]
  · rintro ⟨x, x1, x2, μ, h1, h2, h3, h4⟩
    have hx : μ (p + 1) = x := by rw [h1 (p + 1) le_rfl, if_pos rfl]
    refine ⟨μ, fun i hi => ?_, fun i hi hi' => ?_, h3, ?_⟩
    · rw [h1 i (by omega), if_neg (by omega)]
    · by_cases h : i = p + 1
      · subst h; rw [hx]; exact ⟨x1, x2⟩
      · exact h2 i (by omega) hi'
    · rw [h4, hsum, hx, ← add_assoc]

section
variable {Mus : List (MuLimit K)} {Os : List (OmegaLimit K)} {qs : List (Pair K)}

theorem dfs_spec (hlen : Mus.length = P.n + 1) (hmus : ∀ (i : Nat) (h : i < Mus.length), 1 ≤ i → Mus[i].Is (P.lo i) (P.hi i) (P.F i))
    (hlo : ∀ i, 1 ≤ i → i ≤ P.n → -R ≤ P.lo i) (hhi : ∀ i, 1 ≤ i → i ≤ P.n → P.hi i ≤ R) (hR0 : 0 ≤ R) (hR : 2 * R + 1 ≤ imax)
    (hq : List.Forall₂ (fun (o : OmegaLimit K) (q : Pair K) => o.i = q.i ∧ o.j = q.j ∧ o.u = q.u ∧
        ∀ x, x ≤ q.u → o.fn x = .ok (q.B x)) Os qs)
    (g : ∀ q ∈ qs, 1 ≤ q.i ∧ q.i ≤ P.n ∧ 1 ≤ q.j ∧ q.j ≤ P.n) (hf : (2 * R + 1).toNat < fuel) :
    ∀ (k p : Nat) (sum : K) (v : Vec Int) (r : Option K) (S : Set K), p + k = P.n → v.size = P.n + 1 →
    (∀ i, 1 ≤ i → i ≤ p → -R ≤ v.get i ∧ v.get i ≤ R) → Outcome S r →
    ∃ v' r', dfs imax fuel Mus Os k p sum (v, r) = .ok (v', r') ∧ v'.size = P.n + 1 ∧ (∀ i, i ≤ p → v'.get i = v.get i) ∧
      Outcome (S ∪ reach P qs p v.get sum) r' := by
  intro k
  induction k with
  | zero =>
    intro p sum v r S hp hv hb hr
    have hp : p = P.n := by omega
    subst hp
    obtain ⟨r', e1, e2⟩ := leaf_spec (imax := imax) (R := R) hv (by omega) hb hr Os qs hq g sum
    refine ⟨v, r', ?_, hv, fun _ _ => rfl, ?_⟩
    · unfold dfs; rw [e1, ok_bind]
    · rw [reach_leaf g]; exact e2
  | succ k ih =>
    intro p sum v r S hp hv hb hr
    have hm := hmus (p + 1) (by omega) (by omega)
    have hlo1 := hlo (p + 1) (by omega) (by omega)
    have hhi1 := hhi (p + 1) (by omega) (by omega)
    set m := Mus[p + 1] with hmdef
    -- the loop from the value `x` of `v[p+1]`
    have loop : ∀ (c : Nat) (fu : Nat) (x : Int) (w : Vec Int) (r : Option K) (T : Set K), c < fu → P.lo (p + 1) ≤ x → x + c = max (P.hi (p + 1) + 1) x →
        w.size = P.n + 1 → w.get (p + 1) = x → (∀ i, i ≤ p → w.get i = v.get i) → Outcome T r →
        ∃ w' r', whileLoop
          (fun st : Vec Int × Option K => do
            let i ← st.1.rd (p + 1)
            .ok (decide (i ≤ P.hi (p + 1))))
          (fun st => do
            let i ← st.1.rd (p + 1)
            let y ← m.fn i
            let st ← dfs imax fuel Mus Os k (p + 1) (sum + y) st
            let i ← st.1.rd (p + 1)
            let i' ← ck imax (i + 1)
            let v ← st.1.wr (p + 1) i'
            .ok (v, st.2)) fu (w, r) = .ok (w', r') ∧ w'.size = P.n + 1 ∧ (∀ i, i ≤ p → w'.get i = v.get i) ∧
          Outcome (T ∪ {z | ∃ y, x ≤ y ∧ y ≤ P.hi (p + 1) ∧
            z ∈ reach P qs (p + 1) (fun i => if i = p + 1 then y else v.get i) (sum + P.F (p + 1) y)}) r' := by
      intro c
      induction c with
      | zero =>
        intro fu x w r T hfu hx hc hw hwx hwv hT
        obtain ⟨fu, rfl⟩ : ∃ f, fu = f + 1 := ⟨fu - 1, by omega⟩
        refine ⟨w, r, ?_, hw, hwv, ?_⟩
        · unfold whileLoop
          dsimp only
          rw [Vec.rd_ok (by omega), ok_bind, ok_bind, hwx, decide_eq_false (by omega)]
          rfl
        · have : ({z | ∃ y, x ≤ y ∧ y ≤ P.hi (p + 1) ∧
              z ∈ reach P qs (p + 1) (fun i => if i = p + 1 then y else v.get i) (sum + P.F (p + 1) y)} : Set K) = ∅ := by
            ext z
            simp only [Set.mem_ofPred_eq, Set.mem_empty_iff_false, iff_false]
            rintro ⟨y, y1, y2, -⟩
            omega
          rw [this, Set.union_empty]
          exact hT
      | succ c ihc =>
        intro fu x w r T hfu hx hc hw hwx hwv hT
        obtain ⟨fu, rfl⟩ : ∃ f, fu = f + 1 := ⟨fu - 1, by omega⟩
        have hxu : x ≤ P.hi (p + 1) := by omega
        unfold whileLoop
        dsimp only
        rw [Vec.rd_ok (by omega), ok_bind, ok_bind, hwx, decide_eq_true hxu, if_pos rfl, ok_bind, hm.fn x hx hxu, ok_bind]
        obtain ⟨w', r', e1, e2, e3, e4⟩ := ih (p + 1) (sum + P.F (p + 1) x) w r T (by omega) hw (by
          intro i i1 i2
          by_cases h : i = p + 1
          · subst h; rw [hwx]; omega
          · rw [hwv i (by omega)]; exact hb i i1 (by omega)) hT
        rw [e1, ok_bind]
        dsimp only
        rw [Vec.rd_ok (by omega), ok_bind, e3 _ le_rfl, hwx, ck_ok (by omega) (by omega), ok_bind, Vec.wr_ok _ (by omega), ok_bind, ok_bind]
        have hreach : reach P qs (p + 1) w.get (sum + P.F (p + 1) x) =
            reach P qs (p + 1) (fun i => if i = p + 1 then x else v.get i) (sum + P.F (p + 1) x) := by
          refine reach_congr (fun i hi => ?_) _
          split
          · rename_i h; rw [h, hwx]
          · exact hwv i (by omega)
        rw [hreach] at e4
        obtain ⟨w2, r2, f1, f2, f3, f4⟩ := ihc fu (x + 1) (w'.set (p + 1) (x + 1)) r' _ (by omega) (by omega) (by push_cast at hc ⊢; omega)
          (by simpa [Vec.set] using e2) (by simp [Vec.set]) (by
            intro i hi
            simp only [Vec.set]
            rw [if_neg (by omega), e3 i (by omega), hwv i hi]) e4
        refine ⟨w2, r2, f1, f2, f3, ?_⟩
        rw [Set.union_assoc] at f4
        convert f4 using 2
        ext z
        simp only [Set.mem_ofPred_eq, Set.mem_union]
        constructor
        · rintro ⟨y, y1, y2, y3⟩
          rcases eq_or_lt_of_le y1 with h | h
          · subst h; exact .inl y3
          · exact .inr ⟨y, by omega, y2, y3⟩
        · rintro (h | ⟨y, y1, y2, y3⟩)
          · exact ⟨x, le_rfl, hxu, h⟩
          · exact ⟨y, by omega, y2, y3⟩
    unfold dfs
    rw [listRd_ok (by omega), ok_bind, Vec.wr_ok _ (by omega), ok_bind, ← hmdef, hm.l, hm.u]
    obtain ⟨w', r', e1, e2, e3, e4⟩ := loop (P.hi (p + 1) + 1 - P.lo (p + 1)).toNat fuel (P.lo (p + 1)) (v.set (p + 1) (P.lo (p + 1))) r S
      (by omega) le_rfl (by omega) (by simpa [Vec.set] using hv) (by simp [Vec.set]) (by
        intro i hi
        simp only [Vec.set]
        rw [if_neg (by omega)]) hr
    refine ⟨w', r', e1, e2, e3, ?_⟩
    rw [reach_step (by omega)]
    exact e4

/-- The oracle returns the optimum; the costs of the nodes need not be convex. -/
theorem bfSolve_spec (rep : Represents P Mus Omegas) (wf : WellFormed P) (cv : ∀ p ∈ P.pairs, Valley p.B p.l p.u)
    (rp : Representable imax P) (wi : Within P R) (hR0 : 0 ≤ R) (hR : 2 * R + 1 ≤ imax)
    (hf : max (Flow.bits imax) (2 * R + 1).toNat < fuel) :
    ∃ r, bfSolve imax fuel P.n Mus Omegas = .ok r ∧ Outcome (ProblemSolver.problemCosts P) r := by
  obtain ⟨Os', qs, e1, e2, e3⟩ := preAll_spec (imax := imax) (P := P) (fuel := fuel) (by omega) Omegas P.pairs rep.omegas (by
    intro p hp
    have := rp.lo p hp
    have := rp.width p hp
    have := wi.u p hp
    exact ⟨wf.le p hp, by omega, by omega, by omega, cv p hp⟩)
  have g : ∀ q ∈ qs, 1 ≤ q.i ∧ q.i ≤ P.n ∧ 1 ≤ q.j ∧ q.j ≤ P.n := by
    intro q hq
    obtain ⟨k, hk, rfl⟩ := List.getElem_of_mem hq
    have hlen := e2.length_eq
    have r := (List.forall₂_iff_get.1 e2).2 k (by omega) hk
    have hp := List.getElem_mem (show k < P.pairs.length by omega)
    simp only [List.get_eq_getElem] at r
    rw [r.i, r.j]
    exact ⟨wf.i_pos _ hp, wf.i_le _ hp, wf.j_pos _ hp, wf.j_le _ hp⟩
  obtain ⟨v', r', f1, -, -, f4⟩ := dfs_spec (imax := imax) (R := R) (fuel := fuel) rep.len rep.mus wi.lo wi.hi hR0 hR e3 g (by omega)
    P.n 0 0 (Vec.replicate (P.n + 1) 0) none ∅ (by omega) rfl (by intro i _ _; omega) (.inl ⟨rfl, rfl⟩)
  refine ⟨r', ?_, ?_⟩
  · unfold bfSolve
    rw [e1, ok_bind, f1, ok_bind]
  · refine ProblemSolver.outcome_relaxed (e2.imp fun _ _ h => h.toCovers) wf ?_
    convert f4 using 1
    rw [Set.empty_union]
    ext w
    simp only [costs, reach, Set.mem_ofPred_eq]
    constructor
    · rintro ⟨π, h1, h2⟩
      rw [arcsFeasible_append] at h1
      rw [arcsCost_append, ProblemSolver.cost_musP] at h2
      have hpi : ∀ q ∈ qs, (π q.i - π 0) - (π q.j - π 0) = π q.i - π q.j := fun q _ => by ring
      refine ⟨fun i => π i - π 0, fun i hi => ?_, fun i i1 i2 => ?_, fun q hq => ?_, ?_⟩
      · obtain rfl : i = 0 := by omega
        simp [Vec.replicate]
      · exact h1.2 _ (ProblemSolver.mem_musP.2 ⟨i, by omega, i2, rfl⟩)
      · have := h1.1 q hq
        dsimp only
        omega
      · rw [← h2, zero_add, add_comm]
        congr 1
        unfold arcsCost
        congr 1
        refine List.map_congr_left fun q hq => ?_
        dsimp only
        rw [hpi q hq]
    · rintro ⟨μ, h1, h2, h3, h4⟩
      have h0 : μ 0 = 0 := by rw [h1 0 le_rfl]; rfl
      refine ⟨μ, ?_, ?_⟩
      · rw [arcsFeasible_append]
        constructor
        · intro q hq
          refine ⟨?_, h3 q hq⟩
          obtain ⟨k, hk, rfl⟩ := List.getElem_of_mem hq
          have hlen := e2.length_eq
          have r := (List.forall₂_iff_get.1 e2).2 k (by omega) hk
          simp only [List.get_eq_getElem] at r
          have gq := g _ hq
          have a1 := h2 _ gq.1 gq.2.1
          have a2 := h2 _ gq.2.2.1 gq.2.2.2
          rw [r.i] at a1 ⊢
          rw [r.j] at a2 ⊢
          rw [r.l_eq]
          omega
        · intro q hq
          obtain ⟨k, k1, k2, rfl⟩ := ProblemSolver.mem_musP.1 hq
          have := h2 k k1 k2
          dsimp only
          omega
      · rw [arcsCost_append, ProblemSolver.cost_musP, h4, zero_add, add_comm]
        congr 1
        refine Finset.sum_congr rfl fun i _ => ?_
        rw [h0, sub_zero]

end

section
variable {D : Type} [Zero D] [Add D] [LT D] [DecidableLT D] {f f' : Nat}

omit [Zero D] [Add D] in
theorem preAll_le (hf : f ≤ f') : ∀ Os : List (OmegaLimit D), Le (preAll imax f Os) (preAll imax f' Os)
  | [] => .refl _
  | it :: rest => (preProcessing_le hf it).bind fun _ => (preAll_le hf rest).bind fun _ => .refl _

omit [Zero D] in
theorem dfs_le (hf : f ≤ f') (Mus : List (MuLimit D)) (Os : List (OmegaLimit D)) : ∀ (k p : Nat) (sum : D) (st : Vec Int × Option D),
    Le (dfs imax f Mus Os k p sum st) (dfs imax f' Mus Os k p sum st)
  | 0, _, _, _ => .refl _
  | k + 1, p, sum, (v, ret) => by
    unfold dfs
    refine (Le.refl _).bind fun m => (Le.refl _).bind fun v => ?_
    refine Le.whileLoop (fun _ => .refl _) (fun st => ?_) hf _
    exact (Le.refl _).bind fun i => (Le.refl _).bind fun y => (dfs_le hf Mus Os k (p + 1) (sum + y) st).bind fun _ => .refl _

theorem bfSolve_le (hf : f ≤ f') (n : Nat) (Mus : List (MuLimit D)) (Os : List (OmegaLimit D)) :
    Le (bfSolve imax f n Mus Os) (bfSolve imax f' n Mus Os) :=
  (preAll_le hf Os).bind fun Os => (dfs_le hf Mus Os n 0 0 _).bind fun _ => .refl _

end
end AHO.Oracle
