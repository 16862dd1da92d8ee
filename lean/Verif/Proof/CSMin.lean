import Verif.Proof.CSInit
import Verif.Proof.CSCost
import Mathlib.Data.Nat.Size
import Verif.LinkSimple
import Mathlib.Algebra.BigOperators.Fin
/-!
# The result of `CostScaling::MinCost`
-/

namespace AHO.CS
open AHO CostScaling Spec
set_option linter.unusedSectionVars false

theorem sum_map_range {α M : Type} [AddCommMonoid M] (L : List α) (g : α → M) (d : α) :
    (L.map g).sum = ∑ k ∈ Finset.range L.length, g (L.getD k d) := by
  induction L with
  | nil => simp
  | cons x L ih => simp [Finset.sum_range_succ', ih, add_comm]

variable {K : Type} [Field K] [LinearOrder K] [IsStrictOrderedRing K]

theorem foldl_sub (m : Nat) (g : Nat → CArc K) (t : K) :
    ((List.range m).map g).foldl (fun t e => t - e.capacity * (e.cost : K)) t =
      t - ∑ e ∈ Finset.range m, (g e).capacity * ((g e).cost : K) := by
  induction m with
  | zero => simp
  | succ m ih =>
    rw [List.range_succ, List.map_append, List.foldl_append, ih, Finset.sum_range_succ]
    simp only [List.map_cons, List.map_nil, List.foldl_cons, List.foldl_nil]
    ring

theorem arc_pot {arcs : List (FlowArc K)} {f : Nat → K} (h : Circulation arcs f) (π : Nat → Int) :
    ∑ k : Fin arcs.length, f k * ((π arcs[k].u - π arcs[k].v : Int) : K) = 0 := by
  have key : ∀ (g : Fin arcs.length → Nat), ∑ k : Fin arcs.length, f k * (π (g k) : K) =
      ∑ v ∈ Finset.univ.image (fun k : Fin arcs.length => arcs[k].u) ∪ Finset.univ.image (fun k : Fin arcs.length => arcs[k].v) ∪
        Finset.univ.image g, (∑ k : Fin arcs.length, if g k = v then f k else 0) * (π v : K) := by
    intro g
    rw [← Finset.sum_fiberwise_of_maps_to (s := Finset.univ) (g := g)
      (t := Finset.univ.image (fun k : Fin arcs.length => arcs[k].u) ∪ Finset.univ.image (fun k : Fin arcs.length => arcs[k].v) ∪
        Finset.univ.image g) (fun k _ => by simp)]
    refine Finset.sum_congr rfl fun v _ => ?_
    rw [Finset.sum_mul, Finset.sum_filter]
    refine Finset.sum_congr rfl fun k _ => ?_
    split <;> simp_all
  have h1 := key fun k => arcs[k].u
  have h2 := key fun k => arcs[k].v
  have e1 : ∀ k : Fin arcs.length, f k * ((π arcs[k].u - π arcs[k].v : Int) : K) =
      f k * (π arcs[k].u : K) - f k * (π arcs[k].v : K) := by intro k; push_cast; ring
  rw [Finset.sum_congr rfl fun k _ => e1 k, Finset.sum_sub_distrib, h1, h2, sub_eq_zero]
  refine Finset.sum_congr ?_ fun v _ => ?_
  · ext x; simp only [Finset.mem_union]; tauto
  · rw [h.balance v]

theorem slackCost_fin (arcs : List (FlowArc K)) (π : Nat → Int) :
    slackCost arcs π = ∑ k : Fin arcs.length, arcs[k].capacity * ((max 0 (π arcs[k].u - π arcs[k].v - arcs[k].cost) : Int) : K) := by
  unfold slackCost
  rw [sum_map_range arcs _ ⟨0, 0, 0, 0⟩, Finset.sum_range]
  refine Finset.sum_congr rfl fun k _ => ?_
  simp

/-- No circulation costs less than minus the slack of potentials. -/
theorem weak_duality {arcs : List (FlowArc K)} {f : Nat → K} (h : Circulation arcs f) (π : Nat → Int) :
    -flowCost arcs f ≤ slackCost arcs π := by
  have h1 : -flowCost arcs f = ∑ k : Fin arcs.length, f k * ((π arcs[k].u - π arcs[k].v - arcs[k].cost : Int) : K) := by
    have h2 := arc_pot h π
    unfold flowCost
    rw [← zero_sub, ← h2, ← Finset.sum_sub_distrib]
    refine Finset.sum_congr rfl fun k _ => ?_
    push_cast; ring
  rw [h1, slackCost_fin]
  refine Finset.sum_le_sum fun k _ => ?_
  have hm : ((π arcs[k].u - π arcs[k].v - arcs[k].cost : Int) : K) ≤
      ((max 0 (π arcs[k].u - π arcs[k].v - arcs[k].cost) : Int) : K) := by exact_mod_cast le_max_right _ _
  have hm0 : (0 : K) ≤ ((max 0 (π arcs[k].u - π arcs[k].v - arcs[k].cost) : Int) : K) := by exact_mod_cast le_max_left _ _
  exact (mul_le_mul_of_nonneg_left hm (h.nonneg k)).trans (mul_le_mul_of_nonneg_right (h.le k) hm0)

variable {arcs : List (InputEdge K)} {n : Nat} {s : CostScaling K} {i : Nat}

/-- What the residual capacities gained at a node is the flow into it minus the flow out of it. -/
theorem gain_flow {c f : Nat → K} (h0 : ∀ k, k < arcs.length → c (2 * k) = (arcOf arcs k).capacity - f k)
    (h1 : ∀ k, k < arcs.length → c (2 * k + 1) = f k) (v : Nat) :
    gain (netOf arcs n) (fun e => c e - capOf arcs e) v =
      (∑ k : Fin (arcs.map InputEdge.arc).length, if (arcs.map InputEdge.arc)[k].v = v then f k else 0) -
        ∑ k : Fin (arcs.map InputEdge.arc).length, if (arcs.map InputEdge.arc)[k].u = v then f k else 0 := by
  unfold gain
  rw [Finset.sum_filter, show (netOf arcs n).E = 2 * arcs.length from rfl, Flow.sum_double]
  have e1 : ∀ k ∈ Finset.range arcs.length,
      ((if (netOf arcs n).src (2 * k) = v then c (2 * k) - capOf arcs (2 * k) else 0) +
        if (netOf arcs n).src (2 * k + 1) = v then c (2 * k + 1) - capOf arcs (2 * k + 1) else 0) =
      (if (arcOf arcs k).v = v then f k else 0) - if (arcOf arcs k).u = v then f k else 0 := by
    intro k hk
    have hk := Finset.mem_range.1 hk
    show ((if srcOf arcs (2 * k) = v then _ else _) + if srcOf arcs (2 * k + 1) = v then _ else _) = _
    rw [srcOf_even, srcOf_odd, h0 k hk, h1 k hk, capOf_even, capOf_odd]
    split <;> split <;> ring
  rw [Finset.sum_congr rfl e1, Finset.sum_sub_distrib]
  have e2 : ∀ (g : FlowArc K → Nat), (∑ k : Fin (arcs.map InputEdge.arc).length, if g (arcs.map InputEdge.arc)[k] = v then
      f k else 0) = ∑ k ∈ Finset.range arcs.length, if g (arcOf arcs k).arc = v then f k else 0 := by
    intro g
    rw [show arcs.length = (arcs.map InputEdge.arc).length by simp, Finset.sum_range]
    refine Finset.sum_congr rfl fun k _ => ?_
    have hk : (k : Nat) < arcs.length := k.2.trans_eq (List.length_map _)
    rw [arcOf_lt hk]; simp
  rw [e2 FlowArc.u, e2 FlowArc.v]
  rfl

/-- No arc has an end beyond the nodes. -/
theorem balance_out (ok : (netOf arcs n).OK) (f : Nat → K) {v : Nat} (hv : ¬ v < n) :
    (∑ k : Fin (arcs.map InputEdge.arc).length, if (arcs.map InputEdge.arc)[k].u = v then f k else 0) =
        ∑ k : Fin (arcs.map InputEdge.arc).length, if (arcs.map InputEdge.arc)[k].v = v then f k else 0 := by
  have hE : (netOf arcs n).E = 2 * arcs.length := rfl
  rw [Finset.sum_eq_zero, Finset.sum_eq_zero]
  · intro k _
    have hk : (k : Nat) < arcs.length := k.2.trans_eq (List.length_map _)
    refine if_neg fun h => hv ?_
    have h1 := ok.src_lt (2 * k + 1) (by rw [hE]; omega)
    simp only [Fin.getElem_fin, List.getElem_map, InputEdge.arc] at h
    have h2 : srcOf arcs (2 * k + 1) < n := h1
    rwa [srcOf_odd, arcOf_lt hk, h] at h2
  · intro k _
    have hk : (k : Nat) < arcs.length := k.2.trans_eq (List.length_map _)
    refine if_neg fun h => hv ?_
    have h1 := ok.src_lt (2 * k) (by rw [hE]; omega)
    simp only [Fin.getElem_fin, List.getElem_map, InputEdge.arc] at h
    have h2 : srcOf arcs (2 * k) < n := h1
    rwa [srcOf_even, arcOf_lt hk, h] at h2

/-- Residual capacities, as a flow through the arcs. -/
theorem circulation_of (ok : (netOf arcs n).OK) {c : Nat → K} (h0 : ∀ k, k < arcs.length → c (2 * k) = (arcOf arcs k).capacity - c (2 * k + 1))
    (hn : ∀ e, e < 2 * arcs.length → 0 ≤ c e) (hb : ∀ v, v < n → gain (netOf arcs n) (fun e => c e - capOf arcs e) v = 0) :
    Circulation (arcs.map InputEdge.arc) (fun k => c (2 * k + 1)) := by
  refine ⟨fun k => ?_, fun k => ?_, fun v => ?_⟩
  · have hk : (k : Nat) < arcs.length := k.2.trans_eq (List.length_map _)
    exact hn _ (by omega)
  · have hk : (k : Nat) < arcs.length := k.2.trans_eq (List.length_map _)
    have h1 := h0 k hk
    have h2 := hn (2 * k) (by omega)
    rw [arcOf_lt hk] at h1
    simp only [Fin.getElem_fin, List.getElem_map, InputEdge.arc]
    linarith
  · by_cases hv : v < n
    · have h1 := hb v hv
      rw [gain_flow (f := fun k => c (2 * k + 1)) h0 (fun _ _ => rfl), sub_eq_zero] at h1
      exact h1.symm
    · exact balance_out ok (fun k => c (2 * k + 1)) hv

/-- The flow at the end, as a flow through the arcs. -/
theorem ScInv.circulation (ok : (netOf arcs n).OK) (I : ScInv (netOf arcs n) (capOf arcs) i0 i s) :
    (∀ k, k < arcs.length → cap s (2 * k) = (arcOf arcs k).capacity - cap s (2 * k + 1)) ∧
    Circulation (arcs.map InputEdge.arc) (fun k => cap s (2 * k + 1)) := by
  have hE : (netOf arcs n).E = 2 * arcs.length := rfl
  have hc : ∀ k, k < arcs.length → cap s (2 * k) = (arcOf arcs k).capacity - cap s (2 * k + 1) := by
    intro k hk
    have h1 := I.anti (2 * k) (by rw [hE]; omega)
    rw [x_even, capOf_odd, capOf_even] at h1
    linarith
  exact ⟨hc, circulation_of ok hc (fun e he => I.nonneg e (by rw [hE]; exact he)) I.bal⟩

/-- rounds which suffice for `MinCost` -/
def csFuel (arcs : List (InputEdge K)) (n : Nat) : Nat := max (refFuel n (2 * arcs.length)) (((eps0 arcs).toNat * n).size + 1)

theorem minCostC_spec {imax : Int} {fuel : Nat} (hu : ∀ a ∈ arcs, a.u < n) (hv : ∀ a ∈ arcs, a.v < n) (hne : ∀ a ∈ arcs, a.u ≠ a.v)
    (hcap : ∀ a ∈ arcs, 0 ≤ a.capacity)
    (heps : ∀ a ∈ arcs, a.capacity = 0 ∨ -a.cost ≤ 1 ∨ ∃ b ∈ arcs, -a.cost ≤ b.cost)
    (hi : 2 * (arcs.length : Int) - 1 ≤ imax) (hc1 : ∀ a ∈ arcs, -a.cost ≤ imax) (hc2 : ∀ a ∈ arcs, a.cost ≤ imax + 1)
    (hf : csFuel arcs n ≤ fuel) :
    ∃ c R f π, minCostC imax fuel n arcs = .ok (c, true, R) ∧ Circulation (arcs.map InputEdge.arc) f ∧
      flowCost (arcs.map InputEdge.arc) f = -R ∧ slackCost (arcs.map InputEdge.arc) π = R ∧
      PhaseSteps n (2 * arcs.length) ((eps0 arcs).toNat * n).size c := by
  have ok := netOf_ok hu hv hne
  have hE : (netOf arcs n).E = 2 * arcs.length := rfl
  have hN : (netOf arcs n).N = n := rfl
  obtain ⟨s0, e1, S0, p0, c0, z0, t0⟩ := init_spec hu hv hi hc1 hc2
  have h1 : 1 ≤ eps0 arcs := foldl_max_ge _ _
  set E0 := (eps0 arcs).toNat with hE0
  have hE0' : ((E0 : Nat) : K) = ((eps0 arcs : Int) : K) := by
    rw [hE0, ← Int.cast_natCast, Int.toNat_of_nonneg (by omega)]
  unfold csFuel at hf
  obtain ⟨c, s, i, e2, I, t1, hb, -, hJ, hw⟩ := scale_spec (c0 := capOf arcs) (E0 := E0) (J := (E0 * n).size) (fuel := fuel) ok (by omega)
    (le_of_max_le_left hf) (Nat.lt_size_self _) fuel 0 s0
    ⟨S0, by rw [p0, hE0']; simp, fun v hv => ⟨0, by rw [z0 v hv]; simp⟩,
      fun e he => by
        rw [c0 e he]
        obtain ⟨k, rfl | rfl⟩ := two_cases e
        · rw [capOf_even]; exact hcap _ (arcOf_mem (by omega))
        · rw [capOf_odd],
      fun e he => by rw [c0 e he, c0 _ (ok.x_lt e he)]; simp,
      fun v hv => Finset.sum_eq_zero fun e he => by
        rw [c0 e (Finset.mem_range.1 (Finset.mem_filter.1 he).1), sub_self],
      fun e he hpos => by
        rw [c0 e he] at hpos
        unfold rc
        rw [z0 _ (ok.src_lt e he), z0 _ (ok.dst_lt he), sub_zero, add_zero, p0]
        obtain ⟨k, rfl | rfl⟩ := two_cases e
        · rw [capOf_even] at hpos
          show _ ≤ ((cstOf arcs (2 * k) : Int) : K)
          rw [cstOf_even]
          have hm := arcOf_mem (arcs := arcs) (k := k) (by omega)
          have : -eps0 arcs ≤ (arcOf arcs k).cost := by
            rcases heps _ hm with h | h | ⟨b, hb, h⟩
            · rw [h] at hpos; exact absurd hpos (lt_irrefl _)
            · omega
            · have : b.cost ≤ eps0 arcs := foldl_max_mem hb _
              omega
          exact_mod_cast this
        · rw [capOf_odd] at hpos; exact absurd hpos (lt_irrefl _)⟩
    (by omega) (by have := le_of_max_le_right hf; rw [← hE0] at this; omega)
  obtain ⟨π, hπ⟩ := I.round ok hb
  obtain ⟨hc, hcirc⟩ := I.circulation ok
  set f : Nat → K := fun k => cap s (2 * k + 1) with hfdef
  have hflow : flowCost (arcs.map InputEdge.arc) f = ∑ k ∈ Finset.range arcs.length, f k * ((arcOf arcs k).cost : K) := by
    unfold flowCost
    rw [show arcs.length = (arcs.map InputEdge.arc).length by simp, Finset.sum_range]
    refine Finset.sum_congr rfl fun k _ => ?_
    have hk : (k : Nat) < arcs.length := k.2.trans_eq (List.length_map _)
    rw [arcOf_lt hk]; simp [InputEdge.arc]
  have hsum : s.edge.toList.foldl (fun t e => t - e.capacity * (e.cost : K)) s.total_cost =
      2 * flowCost (arcs.map InputEdge.arc) f := by
    unfold Vec.toList
    rw [foldl_sub, I.esz, hE, Flow.sum_double, t1, t0, sum_map_range arcs _ ⟨0, 0, 0, 0⟩, hflow, Finset.mul_sum, ← Finset.sum_sub_distrib]
    refine Finset.sum_congr rfl fun k hk => ?_
    have hk := Finset.mem_range.1 hk
    have g1 := I.edge (2 * k) (by rw [hE]; omega)
    have g2 := I.edge (2 * k + 1) (by rw [hE]; omega)
    rw [g1, g2]
    show (arcOf arcs k).capacity * ((arcOf arcs k).cost : K) - (cap s (2 * k) * ((cstOf arcs (2 * k) : Int) : K) +
      cap s (2 * k + 1) * ((cstOf arcs (2 * k + 1) : Int) : K)) = _
    rw [cstOf_even, cstOf_odd, hc k hk]
    push_cast; ring
  have hi' : i = (E0 * n).size := le_antisymm hJ (Nat.size_le.2 hb)
  rw [Nat.sub_zero, hi'] at hw
  refine ⟨c, -flowCost (arcs.map InputEdge.arc) f, f, π, ?_, hcirc, by ring, ?_, hw⟩
  · unfold minCostC
    rw [e1, ok_bind, e2, ok_bind]
    simp only [if_true]
    rw [hsum, show ((2 : Int) : K) = 2 by norm_num, neg_div, mul_div_cancel_left₀ _ (by norm_num)]
  · have h2 := arc_pot hcirc π
    have h3 : -flowCost (arcs.map InputEdge.arc) f = ∑ k : Fin (arcs.map InputEdge.arc).length,
        f k * ((π (arcs.map InputEdge.arc)[k].u - π (arcs.map InputEdge.arc)[k].v - (arcs.map InputEdge.arc)[k].cost : Int) : K) := by
      unfold flowCost
      rw [← zero_sub, ← h2, ← Finset.sum_sub_distrib]
      refine Finset.sum_congr rfl fun k _ => ?_
      push_cast; ring
    rw [h3, slackCost_fin]
    refine Finset.sum_congr rfl fun k _ => ?_
    have hk : (k : Nat) < arcs.length := k.2.trans_eq (List.length_map _)
    have ha : (arcs.map InputEdge.arc)[k] = (arcOf arcs k).arc := by rw [arcOf_lt hk]; simp
    rw [ha]
    show (arcOf arcs k).capacity * ((max 0 (π (arcOf arcs k).u - π (arcOf arcs k).v - (arcOf arcs k).cost) : Int) : K) =
      f k * ((π (arcOf arcs k).u - π (arcOf arcs k).v - (arcOf arcs k).cost : Int) : K)
    have o1 := hπ (2 * k) (by rw [hE]; omega)
    have o2 := hπ (2 * k + 1) (by rw [hE]; omega)
    rw [show (netOf arcs n).src (2 * (k : Nat)) = _ from srcOf_even arcs k, show (netOf arcs n).dst (2 * (k : Nat)) = _ from dstOf_even arcs k,
      show (netOf arcs n).cst (2 * (k : Nat)) = _ from cstOf_even arcs k] at o1
    rw [show (netOf arcs n).src (2 * (k : Nat) + 1) = _ from srcOf_odd arcs k, show (netOf arcs n).dst (2 * (k : Nat) + 1) = _ from dstOf_odd arcs k,
      show (netOf arcs n).cst (2 * (k : Nat) + 1) = _ from cstOf_odd arcs k] at o2
    have n1 := I.nonneg (2 * k) (by rw [hE]; omega)
    have n2 := I.nonneg (2 * k + 1) (by rw [hE]; omega)
    have hck := hc k hk
    rcases lt_trichotomy (π (arcOf arcs k).u - π (arcOf arcs k).v - (arcOf arcs k).cost) 0 with h | h | h
    · rw [max_eq_left h.le]
      have : cap s (2 * (k : Nat) + 1) = 0 := by
        by_contra hne
        have := o2 (lt_of_le_of_ne n2 (Ne.symm hne))
        omega
      simp only [hfdef]
      rw [this]; simp
    · rw [h]; simp
    · rw [max_eq_right h.le]
      have : cap s (2 * (k : Nat)) = 0 := by
        by_contra hne
        have := o1 (lt_of_le_of_ne n1 (Ne.symm hne))
        omega
      simp only [hfdef]
      rw [show (arcOf arcs k).capacity = cap s (2 * (k : Nat) + 1) by linarith]

theorem minCost_spec {imax : Int} {fuel : Nat} (hu : ∀ a ∈ arcs, a.u < n) (hv : ∀ a ∈ arcs, a.v < n) (hne : ∀ a ∈ arcs, a.u ≠ a.v)
    (hcap : ∀ a ∈ arcs, 0 ≤ a.capacity)
    (heps : ∀ a ∈ arcs, a.capacity = 0 ∨ -a.cost ≤ 1 ∨ ∃ b ∈ arcs, -a.cost ≤ b.cost)
    (hi : 2 * (arcs.length : Int) - 1 ≤ imax) (hc1 : ∀ a ∈ arcs, -a.cost ≤ imax) (hc2 : ∀ a ∈ arcs, a.cost ≤ imax + 1)
    (hf : csFuel arcs n ≤ fuel) :
    ∃ R f π, CostScaling.minCost imax fuel n arcs = .ok (true, R) ∧ Circulation (arcs.map InputEdge.arc) f ∧
      flowCost (arcs.map InputEdge.arc) f = -R ∧ slackCost (arcs.map InputEdge.arc) π = R := by
  obtain ⟨c, R, f, π, e, h1, h2, h3, -⟩ := minCostC_spec hu hv hne hcap heps hi hc1 hc2 hf
  exact ⟨R, f, π, (minCostC_er _ _ _ _).to_ok e, h1, h2, h3⟩

/-- `Refine`, for flows through the arcs -/
theorem refineC_flow {imax : Int} (hu : ∀ a ∈ arcs, a.u < n) (hv : ∀ a ∈ arcs, a.v < n) (hne : ∀ a ∈ arcs, a.u ≠ a.v)
    (hi : 2 * (arcs.length : Int) - 1 ≤ imax) (hc1 : ∀ a ∈ arcs, -a.cost ≤ imax) (hc2 : ∀ a ∈ arcs, a.cost ≤ imax + 1)
    {s0 : CostScaling K} (h0 : init imax n arcs = .ok s0) {f p : Nat → K} (hs : Holds arcs s0 f p s) (hcirc : Circulation (arcs.map InputEdge.arc) f)
    (hpos : 0 < s.epsilon) (hopt : FlowEpsOptimal (arcs.map InputEdge.arc) f p s.epsilon) {fuel : Nat} (hf : refFuel n (2 * arcs.length) ≤ fuel) :
    ∃ c s' f' p', refineC fuel s = .ok (c, s', true) ∧ RefineSteps n (2 * arcs.length) c ∧ Holds arcs s0 f' p' s' ∧ Circulation (arcs.map InputEdge.arc) f' ∧ s'.epsilon = s.epsilon ∧
      FlowEpsOptimal (arcs.map InputEdge.arc) f' p' (s.epsilon / 2) := by
  have ok := netOf_ok hu hv hne
  have hE : (netOf arcs n).E = 2 * arcs.length := rfl
  have hN : (netOf arcs n).N = n := rfl
  obtain ⟨s0', e1, S0, -, -, -, -⟩ := init_spec hu hv hi hc1 hc2
  rw [h0] at e1
  cases e1
  have hsN : s0.N = n := S0.N
  have hes : s0.edge.size = 2 * arcs.length := S0.esz
  have S : Static (netOf arcs n) s := by
    refine ⟨hs.N.trans S0.N, hs.p_size.trans S0.psz, hs.head_size.trans S0.hsz, fun u hu => ?_, hs.size.trans S0.esz, fun e he => ?_⟩
    · rw [hs.head u (by rw [hsN]; exact hu), S0.head u hu]
    · have he' : e < s0.edge.size := by rw [hes]; exact he
      have g := S0.edge e he
      have g1 := hs.next e he'
      have g2 := hs.v e he'
      have g3 := hs.cost e he'
      rw [g] at g1 g2 g3
      dsimp only at g1 g2 g3
      rw [← g1, ← g2, ← g3]
      rfl
  have c0 : ∀ k, k < arcs.length → cap s (2 * k) = (arcOf arcs k).capacity - f k := fun k hk => by
    rw [arcOf_lt hk]; exact hs.rest k hk
  have c1 : ∀ k, k < arcs.length → cap s (2 * k + 1) = f k := hs.flow
  have fin : ∀ k, k < arcs.length → k < (arcs.map InputEdge.arc).length := fun k hk => by simpa using hk
  have hget : ∀ k (hk : k < arcs.length), (arcs.map InputEdge.arc)[(⟨k, fin k hk⟩ : Fin _)] = (arcOf arcs k).arc := fun k hk => by
    rw [arcOf_lt hk]; simp
  have rc0 : ∀ (q : Nat → K) k, rc (netOf arcs n) q (2 * k) = ((arcOf arcs k).cost : K) - q (arcOf arcs k).u + q (arcOf arcs k).v := fun q k => by
    show ((cstOf arcs (2 * k) : Int) : K) - q (srcOf arcs (2 * k)) + q (dstOf arcs (2 * k)) = _
    rw [cstOf_even, srcOf_even, dstOf_even]
  have rc1 : ∀ (q : Nat → K) k, rc (netOf arcs n) q (2 * k + 1) = -((arcOf arcs k).cost : K) - q (arcOf arcs k).v + q (arcOf arcs k).u := fun q k => by
    show ((cstOf arcs (2 * k + 1) : Int) : K) - q (srcOf arcs (2 * k + 1)) + q (dstOf arcs (2 * k + 1)) = _
    rw [cstOf_odd, srcOf_odd, dstOf_odd]; push_cast; rfl
  have pu : ∀ k, k < arcs.length → s.p.get (arcOf arcs k).u = p (arcOf arcs k).u := fun k hk => hs.p _ (by rw [hsN]; exact hu _ (arcOf_mem hk))
  have pv : ∀ k, k < arcs.length → s.p.get (arcOf arcs k).v = p (arcOf arcs k).v := fun k hk => hs.p _ (by rw [hsN]; exact hv _ (arcOf_mem hk))
  obtain ⟨cc, s', e2, w2, S', x1, t1, n1, a1, g1, -, o1⟩ := refine_spec ok S (h := s.epsilon / 2) (by linarith) (by ring)
    (fun e he => by
      obtain ⟨k, rfl | rfl⟩ := two_cases e
      · have hk : k < arcs.length := by omega
        have h := hcirc.le ⟨k, fin k hk⟩
        rw [hget k hk] at h
        have h : f k ≤ (arcOf arcs k).capacity := h
        rw [c0 k hk]; linarith
      · have hk : k < arcs.length := by omega
        rw [c1 k hk]; exact hcirc.nonneg ⟨k, fin k hk⟩)
    (fun e he hpos => by
      obtain ⟨k, rfl | rfl⟩ := two_cases e
      · have hk : k < arcs.length := by omega
        have h := (hopt ⟨k, fin k hk⟩).1
        rw [hget k hk] at h
        rw [c0 k hk] at hpos
        have h : p (arcOf arcs k).u - p (arcOf arcs k).v - ((arcOf arcs k).cost : K) ≤ s.epsilon := h (by
          show f k < (arcOf arcs k).capacity
          linarith)
        rw [rc0, pu k hk, pv k hk]; linarith
      · have hk : k < arcs.length := by omega
        have h := (hopt ⟨k, fin k hk⟩).2
        rw [hget k hk] at h
        rw [c1 k hk] at hpos
        have h : -s.epsilon ≤ p (arcOf arcs k).u - p (arcOf arcs k).v - ((arcOf arcs k).cost : K) := h hpos
        rw [rc1, pu k hk, pv k hk]; linarith) hf
  have c2 : ∀ k, k < arcs.length → cap s' (2 * k) = (arcOf arcs k).capacity - cap s' (2 * k + 1) := by
    intro k hk
    have h1 := a1 (2 * k) (by rw [hE]; omega)
    rw [x_even, c0 k hk, c1 k hk] at h1
    linarith
  refine ⟨cc, s', fun k => cap s' (2 * k + 1), s'.p.get, e2, w2, ?_, circulation_of ok c2 n1 fun v hv => ?_, x1, fun k => ⟨fun h => ?_, fun h => ?_⟩⟩
  · have hS : ∀ e, e < 2 * arcs.length → s'.edge.get e = ⟨(s0.edge.get e).next, (s0.edge.get e).v, (s0.edge.get e).cost, cap s' e⟩ := by
      intro e he
      rw [S'.edge e he, S0.edge e he]
    refine ⟨S'.N.trans hsN.symm, S'.hsz.trans S0.hsz.symm, fun u hu => ?_, t1.trans hs.total, S'.psz.trans S0.psz.symm, fun _ _ => rfl,
      S'.esz.trans S0.esz.symm, fun e he => ?_, fun e he => ?_, fun e he => ?_, fun k hk => ?_, fun _ _ => rfl⟩
    · rw [hsN] at hu
      rw [S'.head u hu, S0.head u hu]
    · rw [hS e (by omega)]
    · rw [hS e (by omega)]
    · rw [hS e (by omega)]
    · have := c2 k hk
      rw [arcOf_lt hk] at this
      exact this
  · have h3 := gain_add (net := netOf arcs n) (fun e => cap s' e - cap s e) (fun e => cap s e - capOf arcs e) v
    rw [g1 v hv, gain_flow c0 c1, hcirc.balance v, sub_self, add_zero] at h3
    rw [← h3]
    refine congrArg (fun d => gain (netOf arcs n) d v) (funext fun e => ?_)
    ring
  · obtain ⟨k, hk'⟩ := k
    have hk : k < arcs.length := by simpa using hk'
    rw [hget k hk] at h ⊢
    have h : cap s' (2 * k + 1) < (arcOf arcs k).capacity := h
    have := o1 (2 * k) (by rw [hE]; omega) (by rw [c2 k hk]; linarith)
    rw [rc0] at this
    show s'.p.get (arcOf arcs k).u - s'.p.get (arcOf arcs k).v - ((arcOf arcs k).cost : K) ≤ _
    linarith
  · obtain ⟨k, hk'⟩ := k
    have hk : k < arcs.length := by simpa using hk'
    rw [hget k hk]
    have := o1 (2 * k + 1) (by rw [hE]; omega) h
    rw [rc1] at this
    show _ ≤ s'.p.get (arcOf arcs k).u - s'.p.get (arcOf arcs k).v - ((arcOf arcs k).cost : K)
    linarith

/-- `Refine`, for flows through the arcs -/
theorem refine_flow {imax : Int} (hu : ∀ a ∈ arcs, a.u < n) (hv : ∀ a ∈ arcs, a.v < n) (hne : ∀ a ∈ arcs, a.u ≠ a.v)
    (hi : 2 * (arcs.length : Int) - 1 ≤ imax) (hc1 : ∀ a ∈ arcs, -a.cost ≤ imax) (hc2 : ∀ a ∈ arcs, a.cost ≤ imax + 1)
    {s0 : CostScaling K} (h0 : init imax n arcs = .ok s0) {f p : Nat → K} (hs : Holds arcs s0 f p s) (hcirc : Circulation (arcs.map InputEdge.arc) f)
    (hpos : 0 < s.epsilon) (hopt : FlowEpsOptimal (arcs.map InputEdge.arc) f p s.epsilon) {fuel : Nat} (hf : refFuel n (2 * arcs.length) ≤ fuel) :
    ∃ s' f' p', refine fuel s = .ok (s', true) ∧ Holds arcs s0 f' p' s' ∧ Circulation (arcs.map InputEdge.arc) f' ∧ s'.epsilon = s.epsilon ∧
      FlowEpsOptimal (arcs.map InputEdge.arc) f' p' (s.epsilon / 2) := by
  obtain ⟨c, s', f', p', e, -, h⟩ := refineC_flow hu hv hne hi hc1 hc2 h0 hs hcirc hpos hopt hf
  exact ⟨s', f', p', (refineC_er _ _).to_ok e, h⟩

end AHO.CS
