import Verif.Props.Flow
/-!
# What the fields of `Flow` mean between two rounds of `refine`
-/

namespace AHO.Props
open Spec Flow

section
variable {K : Type} [Field K] [LinearOrder K] [IsStrictOrderedRing K]
variable {imax : Int} {n : Nat} {M : K} {U R : Int} {limits : List (OmegaLimit K)} {arcs : List (Pair K)}

/-- Edge `2a` of the program is the arc `a`, edge `2a + 1` is the same arc backwards. -/
def edgeArc (arcs : List (Pair K)) (e : Nat) : Pair K :=
  let p := arcs.getD (e / 2) ⟨0, 0, 0, 0, fun _ => 0⟩
  if e % 2 = 0 then p else ⟨p.j, p.i, -p.u, -p.l, fun x => p.B (-x)⟩

/-- The flow on edge `e` if `f a` units flow through the arc `a`. -/
def edgeFlow (f : Nat → K) (e : Nat) : K := if e % 2 = 0 then f (e / 2) else -f (e / 2)

/-- An arc with flow `f` is not admissible at the difference `d / N` of the potentials of its ends: no slope of its cost to the left of `d / N`
is greater than `f`. -/
def Saturated (M : K) (N : Int) (p : Pair K) (d : Int) (f : K) : Prop :=
  ∀ x, x * N < d → penal M p.l p.u p.B (x + 1) - penal M p.l p.u p.B x ≤ f

/-- A flow is optimal up to `0` exactly if neither the arc nor its reverse is admissible. -/
theorem saturated_both {p : Pair K} (hle : p.l ≤ p.u) {N d : Int} {f : K} :
    EpsOptimal M N 0 p d f ↔ Saturated M N p d f ∧ Saturated M N ⟨p.j, p.i, -p.u, -p.l, fun x => p.B (-x)⟩ (-d) (-f) := by
  unfold EpsOptimal Saturated
  rw [sub_zero, add_zero]
  refine and_congr_right fun _ => ⟨fun h x hx => ?_, fun h x hx => ?_⟩
  · have := h (-x - 1) (by rw [show (-x - 1 + 1) * N = -(x * N) by ring]; omega)
    simp only [penal_rev hle]
    rw [show -x - 1 + 1 = -x by ring] at this
    rw [show -(x + 1) = -x - 1 by ring]
    linarith
  · have := h (-x - 1) (by rw [show (-x - 1) * N = -((x + 1) * N) by ring]; omega)
    simp only [penal_rev hle] at this
    rw [show -(-x - 1 + 1) = x by ring, show -(-x - 1) = x + 1 by ring] at this
    linarith

theorem edgeArc_net (I : NetInput imax n M U R limits arcs) {e : Nat} (he : e < 2 * arcs.length) :
    (inputNet n M limits arcs).src e = (edgeArc arcs e).i ∧ (inputNet n M limits arcs).dst e = (edgeArc arcs e).j ∧
    (inputNet n M limits arcs).lo e = (edgeArc arcs e).l ∧ (inputNet n M limits arcs).up e = (edgeArc arcs e).u ∧
    (inputNet n M limits arcs).g e = (edgeArc arcs e).B := by
  obtain ⟨k, h | h⟩ := even_or e
  · obtain ⟨rfl, -⟩ := h
    have hk : k < arcs.length := by omega
    obtain ⟨g1, g2, g3, g4, g5⟩ := get_arc I hk
    unfold edgeArc
    simp only [half0, par0, if_true]
    rw [show arcs.getD k ⟨0, 0, 0, 0, fun _ => 0⟩ = arcs[k] by simp [List.getD_eq_getElem?_getD, hk]]
    exact ⟨g1, g2, g3, g4, g5⟩
  · obtain ⟨rfl, -⟩ := h
    have hk : k < arcs.length := by omega
    have hE : 2 * k < (inputNet n M limits arcs).E := by
      show _ < 2 * limits.length
      rw [I.rep.length_eq]; omega
    have ok := inputNet_ok I
    obtain ⟨g1, g2, g3, g4, g5⟩ := get_arc I hk
    unfold edgeArc
    simp only [half1, par1, if_neg (show ¬ (1 : Nat) = 0 by decide)]
    rw [show arcs.getD k ⟨0, 0, 0, 0, fun _ => 0⟩ = arcs[k] by simp [List.getD_eq_getElem?_getD, hk], ← two_xor k]
    exact ⟨by rw [ok.src_x _ hE, g2], by rw [ok.dst_x _ hE, g1], by rw [ok.lo_x _ hE, g4], by rw [ok.up_x _ hE, g3], by rw [ok.g_x _ hE, g5]⟩

/-- `Saturated` in terms of the slope which `q` looks up -/
theorem saturated_iff (I : NetInput imax n M U R limits arcs) {e : Nat} (he : e < 2 * arcs.length) (d : Int) (f : K) :
    Saturated M (2 * ((n : Int) + 1)) (edgeArc arcs e) d f ↔ (inputNet n M limits arcs).L e d ≤ f := by
  obtain ⟨-, -, g3, g4, g5⟩ := edgeArc_net I he
  have hE : e < (inputNet n M limits arcs).E := by
    show _ < 2 * limits.length
    rw [I.rep.length_eq]; omega
  have hed := (inputNet_ok I).edge e hE
  rw [g3, g4, g5] at hed
  unfold Net.L
  rw [g3, g4, g5]
  have hN : (inputNet n M limits arcs).N = 2 * ((n : Int) + 1) := rfl
  constructor
  · intro h
    have := h (cdiv d (inputNet n M limits arcs).N - 1) (by
      have := (cdiv_bounds d _ hed.npos).1
      rw [← hN, mul_comm]; exact this)
    have h2 := penal_slope hed (cdiv d (inputNet n M limits arcs).N - 1)
    rw [sub_add_cancel, lft_cdiv hed.npos] at h2
    rw [sub_add_cancel] at this
    exact h2 ▸ this
  · intro h x hx
    exact (slope_le_lft hed hx).trans h

/-- C74. The state before every round of the loop of `refine`, in every phase. There is a flow `f` on the arcs, at most `M` in absolute value, such that:
* `imbalances[v]` is what flows into `v` minus what leaves it;
* `f` and the potentials `scaling / (2(n+1))` satisfy complementary slackness up to `epsilon / 2`, at every single round;
* for every edge `e`, `q(e)` is the least amount `y ≥ 0` for which the edge with `flows[e] + y` is not admissible;
* the link of a node `v` to its parent is its current edge, which goes from `v` to the parent; `q` of this edge is positive, the value `x` of `v` in the link-cut
  tree is the least amount for which the edge with the actual flow is not admissible, and the actual flow is `flows[e] + (q(e) - x)`;
* on all other arcs `flows` is the actual flow;
* the edges before the current edge of a node are not admissible. -/
theorem C74_rounds (I : NetInput imax n M U R limits arcs) :
    ∃ N, ∀ fuel, N ≤ fuel → ∃ s, Flow.mk' imax fuel n M U limits = .ok s ∧ ∀ k, k < phaseCount n U →
      ∃ s₁ s₂, iterN (Flow.phase imax fuel) k s = .ok s₁ ∧ pushAllAdmissibleEdge imax (initialization s₁) = .ok s₂ ∧
      ∃ J, whileLoop (fun s : Flow K => .ok (!s.uq.empty)) (refineStep imax fuel) fuel s₂ = iterN (refineStep imax fuel) J s₂ ∧
        ∀ j, j ≤ J → ∃ s', iterN (refineStep imax fuel) j s₂ = .ok s' ∧ ∃ f : Nat → K,
          (∀ a, a < arcs.length → |f a| ≤ M) ∧
          (∀ v, v ≤ n → s'.imbalances.rd v = .ok (-outflow arcs f v)) ∧
          (∀ (a : Nat) (ha : a < arcs.length), EpsOptimal M (2 * ((n : Int) + 1)) (s₁.epsilon / 2) arcs[a]
            (s'.scaling.get arcs[a].i - s'.scaling.get arcs[a].j) (f a)) ∧
          (∀ e, e < 2 * arcs.length → ∃ y, q imax s' e = .ok y ∧ IsLeast {y | 0 ≤ y ∧ Saturated M (2 * ((n : Int) + 1)) (edgeArc arcs e)
            (s'.scaling.get (edgeArc arcs e).i - s'.scaling.get (edgeArc arcs e).j) (s'.flows.get e + y)} y) ∧
          (∀ v, v ≤ n → ∀ w, s'.fa.get v = some w → ∃ e y x h, (s'.G.get v)[s'.currentEdge.get v]? = some e ∧ e < 2 * arcs.length ∧
            (edgeArc arcs e).i = v ∧ (edgeArc arcs e).j = w ∧ q imax s' e = .ok y ∧ 0 < y ∧
            LCT.getVal fuel s'.nodes v = .ok (x, h) ∧ edgeFlow f e = s'.flows.get e + (y - x) ∧
            IsLeast {x | 0 ≤ x ∧ Saturated M (2 * ((n : Int) + 1)) (edgeArc arcs e)
              (s'.scaling.get (edgeArc arcs e).i - s'.scaling.get (edgeArc arcs e).j) (edgeFlow f e + x)} x) ∧
          (∀ a, a < arcs.length → (∀ e, e = 2 * a ∨ e = 2 * a + 1 → s'.fa.get (edgeArc arcs e).i = none ∨
            (s'.G.get (edgeArc arcs e).i)[s'.currentEdge.get (edgeArc arcs e).i]? ≠ some e) → s'.flows.get (2 * a) = f a) ∧
          (∀ a, a < arcs.length → s'.flows.get (2 * a + 1) = -s'.flows.get (2 * a)) ∧
          ∀ v, v ≤ n → ∀ i, i < s'.currentEdge.get v → ∀ e, (s'.G.get v)[i]? = some e → Saturated M (2 * ((n : Int) + 1)) (edgeArc arcs e)
            (s'.scaling.get (edgeArc arcs e).i - s'.scaling.get (edgeArc arcs e).j) (edgeFlow f e) := by
  refine ⟨minFuel n limits.length U R (2 * ((n : Int) + 1) * R), fun fuel hf => ?_⟩
  obtain ⟨s, B, e1, e2, e3, e4, e5⟩ := NetInput.phases I hf
  refine ⟨s, e1, fun k hk => ?_⟩
  have hk' : k < epsExp n U := hk
  obtain ⟨s₁, a1, ⟨C, hC, P⟩, a3, a4⟩ := e5 k hk'.le
  obtain ⟨St, hph⟩ := a4 hk
  have h2 : (2 : Int) ^ (epsExp n U - k) = 2 * 2 ^ (epsExp n U - 1 - k) := by
    rw [show epsExp n U - k = (epsExp n U - 1 - k) + 1 by omega, pow_succ]; ring
  have hdiv : s₁.epsilon.tdiv 2 = 2 ^ (epsExp n U - 1 - k) := by
    rw [a3, h2, Int.mul_tdiv_cancel_left _ (by norm_num)]
  have hdiv' : s₁.epsilon / 2 = 2 ^ (epsExp n U - 1 - k) := by rw [a3, h2]; omega
  obtain ⟨ed, rm⟩ := room_id (net := inputNet n M limits arcs)
    (C := C - (inputNet n M limits arcs).E * (inputNet n M limits arcs).M) I.M_nonneg (by linarith)
  have ok := inputNet_ok I
  obtain ⟨s₂, f, w, b1, b2, -⟩ := P.begin ok rm hdiv St
  have hfu := phaseFuel_ge (net := inputNet n M limits arcs) (relabels n B k)
  obtain ⟨J, hJ, hr⟩ := RInv.rounds ok rm (hfu.1.trans hph) (hfu.2.trans hph) St _ s₂ f w _ _ b2 rfl
  have hJ' : J < fuel := lt_of_le_of_lt hJ ((measR_lt _).trans_le hph)
  have hE : (inputNet n M limits arcs).E = 2 * arcs.length := by show 2 * limits.length = _; rw [I.rep.length_eq]
  have hn : (inputNet n M limits arcs).n = n := rfl
  have hM : (inputNet n M limits arcs).M = M := rfl
  refine ⟨s₁, s₂, a1, b1, J, whileLoop_iterN (fun j hj => ?_) hJ', fun j hj => ?_⟩
  · obtain ⟨s', -, -, -, -, c1, -, c3, -⟩ := hr j hj
    refine ⟨s', c1, ?_⟩
    congr 1
    by_cases hjJ : j < J
    · rw [decide_eq_true hjJ]
      have := c3.1 hjJ
      simp [UQ.empty, this]
    · rw [decide_eq_false hjJ]
      have : s'.uq.queue = [] := by
        by_contra hne; exact hjJ (c3.2 hne)
      simp [UQ.empty, this]
  obtain ⟨s', f', w', τ', k', c1, c2, c3, -⟩ := hr j hj
  have Iv := c2.A.I
  have st := Iv.st
  have po := c2.po St
  have hfl : ∀ e, e < 2 * arcs.length → edgeFlow (fun a => f' (2 * a)) e = f' e := by
    intro e he
    obtain ⟨a, h | h⟩ := even_or e
    · obtain ⟨rfl, -⟩ := h
      simp [edgeFlow]
    · obtain ⟨rfl, -⟩ := h
      have := Iv.anti (2 * a) (by omega)
      rw [two_xor] at this
      simp only [edgeFlow, par1, half1, if_neg (show ¬ (1 : Nat) = 0 by decide)]
      rw [this]
  have hdd : ∀ e, e < 2 * arcs.length →
      s'.scaling.get (edgeArc arcs e).i - s'.scaling.get (edgeArc arcs e).j = dd (inputNet n M limits arcs) s' e := by
    intro e he
    obtain ⟨g1, g2, -⟩ := edgeArc_net I he
    unfold dd; rw [g1, g2]
  have hq : ∀ e, e < 2 * arcs.length →
      q imax s' e = .ok (max 0 ((inputNet n M limits arcs).L e (dd (inputNet n M limits arcs) s' e) - s'.flows.get e)) := fun e he =>
    q_spec ok st po (by omega) (Iv.flB e (by omega)) (Iv.flB' ok (by omega))
  have hce : ∀ v, v ≤ n → ce (inputNet n M limits arcs) s' v = (s'.G.get v)[s'.currentEdge.get v]? := by
    intro v hv
    unfold ce; rw [st.g v hv]
  have hsrc : ∀ e, e < 2 * arcs.length → (edgeArc arcs e).i ≤ n := by
    intro e he
    rw [← (edgeArc_net I he).1]
    exact ok.src_le e (by omega)
  refine ⟨s', c1, fun a => f' (2 * a), fun a ha => ?_, fun v hv => ?_, fun a ha => ?_, fun e he => ?_, fun v hv p hp => ?_, fun a ha hl => ?_,
    fun a ha => ?_, fun v hv i hi e he => ?_⟩
  · exact abs_le.2 ⟨Iv.neg_M_le ok (by omega), Iv.bd _ (by omega)⟩
  · rw [Vec.rd_ok (by rw [st.isz, hn]; omega), Iv.cons v hv, outflow_eq I Iv.anti]
  · rw [hdiv']
    exact epsOptimal_of I (pot := s'.scaling.get) Iv.anti Iv.opt ha
  · refine ⟨_, hq e he, ⟨le_max_left _ _, ?_⟩, fun y hy => ?_⟩
    · rw [hdd e he, saturated_iff I he]
      have := le_max_right 0 ((inputNet n M limits arcs).L e (dd (inputNet n M limits arcs) s' e) - s'.flows.get e)
      linarith
    · obtain ⟨h0, h1⟩ := hy
      rw [hdd e he, saturated_iff I he] at h1
      exact max_le h0 (by linarith)
  · obtain ⟨e, t1, t2, t3, t4, t5⟩ := Iv.tree v hv p hp
    obtain ⟨t6, t7⟩ := ce_src t1
    have he : e < 2 * arcs.length := by omega
    obtain ⟨g1, g2, -⟩ := edgeArc_net I he
    obtain ⟨h', v1, -⟩ := Iv.rep.getVal (x := v) (fuel := fuel) (by rw [st.nsz]; omega) (by
      rw [st.nsz]; exact hfu.1.trans hph)
    refine ⟨e, _, _, h', (hce v hv).symm.trans t1, he, by rw [← g1, t7], by rw [← g2, t2], hq e he, ?_, v1, ?_, ⟨t5, ?_⟩, fun y hy => ?_⟩
    · exact lt_max_of_lt_right (by linarith)
    · rw [hfl e he, t4, max_eq_right (by linarith)]; ring
    · rw [hdd e he, saturated_iff I he, hfl e he]; linarith
    · obtain ⟨h0, h1⟩ := hy
      rw [hdd e he, saturated_iff I he, hfl e he] at h1
      linarith
  · have nt : ∀ e, e < 2 * arcs.length → (e = 2 * a ∨ e = 2 * a + 1) → ¬ Tree (inputNet n M limits arcs) s' e := by
      rintro e he hea ⟨-, h1, h2⟩
      rw [(edgeArc_net I he).1] at h1 h2
      rw [hce _ (hsrc e he)] at h2
      rcases hl e hea with h | h
      · exact h1 h
      · exact h h2
    refine Iv.non (2 * a) (by omega) (nt _ (by omega) (.inl rfl)) ?_
    rw [two_xor]
    exact nt _ (by omega) (.inr rfl)
  · rw [← two_xor]
    exact Iv.flA _ (by omega)
  · rw [st.g v hv] at he
    have hel : e < 2 * arcs.length := by
      have := (Net.mem_out.1 (List.mem_of_getElem? he)).1
      omega
    rw [hdd e hel, saturated_iff I hel, hfl e hel]
    exact Iv.cur v hv i hi e he

end

/-- The hypothesis is met by the example network. -/
example : NetInput (2 ^ 31 - 1) 2 (10 : ℚ) 2 2 exLimits exArcs := exArcs_input

/-- In its first phase, after three rounds: node `1` has the parent `2`, through edge `4`. `q` is `13`, the value in the link-cut tree `6`, so that
`7` units flow through this edge which `flows` does not contain yet. The imbalances are `2`, `0` and `-2`. -/
example : (do
      let s ← Flow.mk' (2 ^ 31 - 1) 20 2 (10 : ℚ) 2 exLimits
      let s ← pushAllAdmissibleEdge (2 ^ 31 - 1) (initialization s)
      let s ← iterN (refineStep (2 ^ 31 - 1) 20) 3 s
      let (x, _) ← LCT.getVal 20 s.nodes 1
      let y ← q (2 ^ 31 - 1) s 4
      .ok (s.fa.get 1, (s.G.get 1)[s.currentEdge.get 1]?, x, y, (List.range 3).map s.imbalances.get) : Res _) =
    .ok (some 2, some 4, 6, 13, [2, 0, -2]) := by
  decide +kernel

end AHO.Props
