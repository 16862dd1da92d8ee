import Verif.Proof.CSPhase
/-!
# The loop of `CostScaling::MinCost`, and the value of the circulation it finds
-/

namespace AHO.CS
open AHO CostScaling
set_option linter.unusedSectionVars false

variable {K : Type} [Field K] [LinearOrder K] [IsStrictOrderedRing K]
variable {net : Net} {s s' : CostScaling K} {c0 : Nat → K} {E0 : Nat}

/-- Between the phases, after `j` of them. -/
structure ScInv (net : Net) (c0 : Nat → K) (E0 : Nat) (j : Nat) (s : CostScaling K) : Prop extends Static net s where
  eps : s.epsilon * 2 ^ j = E0
  pot : ∀ v, v < net.N → ∃ z : Int, s.p.get v = z * s.epsilon
  nonneg : ∀ e, e < net.E → 0 ≤ cap s e
  anti : ∀ e, e < net.E → cap s (e ^^^ 1) - c0 (e ^^^ 1) = -(cap s e - c0 e)
  bal : ∀ v, v < net.N → gain net (fun e => cap s e - c0 e) v = 0
  opt : ∀ e, e < net.E → 0 < cap s e → -s.epsilon ≤ rc net s.p.get e

theorem gain_add (d d' : Nat → K) (v : Nat) : gain net (fun e => d e + d' e) v = gain net d v + gain net d' v :=
  Finset.sum_add_distrib

/-- What `p` calls of `Refine` take on a network with `N` nodes and `E` residual edges. -/
structure PhaseSteps (N E p : Nat) (c : Steps) : Prop where
  phases : c.phases = p
  rounds : c.rounds ≤ p * refRounds N E
  scans : c.scans ≤ p * ((3 * (N - 1) + 3) * E + refRounds N E)
  relabels : c.relabels ≤ p * maxRel N

theorem scale_spec (ok : net.OK) (h0 : 0 < E0) {fuel J : Nat} (hf : refFuel net.N net.E ≤ fuel) (hJ : E0 * net.N < 2 ^ J) :
    ∀ (k j : Nat) (s : CostScaling K), ScInv net c0 E0 j s → j ≤ J → J < j + k →
      ∃ c s' i, scaleC fuel k s = .ok (c, s', true) ∧ ScInv net c0 E0 i s' ∧ s'.total_cost = s.total_cost ∧ E0 * net.N < 2 ^ i ∧ j ≤ i ∧
        i ≤ J ∧ PhaseSteps net.N net.E (i - j) c := by
  intro k
  have two : ∀ j : Nat, (0 : K) < 2 ^ j := fun j => pow_pos (by norm_num) _
  induction k with
  | zero =>
    intro j s I hj hk
    omega
  | succ k ih =>
    intro j s I hj hk
    have hep : 0 < s.epsilon := by
      have h1 : 0 < s.epsilon * 2 ^ j := by rw [I.eps]; exact_mod_cast h0
      exact (pos_iff_pos_of_mul_pos h1).2 (two j)
    have key : (1 ≤ s.epsilon * (net.N : K)) ↔ 2 ^ j ≤ E0 * net.N := by
      rw [← mul_le_mul_iff_of_pos_right (two j), one_mul,
        show s.epsilon * (net.N : K) * 2 ^ j = s.epsilon * 2 ^ j * net.N by ring, I.eps]
      exact_mod_cast Iff.rfl
    have hc : (((s.N : Int)) : K) = (net.N : K) := by rw [I.N]; simp
    unfold scaleC
    rw [hc]
    by_cases hlt : 2 ^ j ≤ E0 * net.N
    · rw [if_pos (key.2 hlt)]
      obtain ⟨c1, s1, e1, w1, S1, x1, t1, n1, a1, g1, p1, o1⟩ := refine_spec ok I.toStatic (h := s.epsilon / 2) (by linarith) (by ring)
        I.nonneg I.opt hf
      rw [e1, ok_bind]
      have h2 : ((2 : Int) : K) = 2 := by norm_num
      simp only [if_true]
      rw [x1, h2]
      have hjJ : j < J := by
        by_contra hc
        have := Nat.pow_le_pow_right (show 0 < 2 by norm_num) (not_lt.1 hc)
        omega
      obtain ⟨c2, s2, i, e2, I2, t2, b2, l2, m2, w2⟩ := ih (j + 1) { s1 with epsilon := s.epsilon / 2 }
        ⟨⟨S1.N, S1.psz, S1.hsz, S1.head, S1.esz, S1.edge⟩, by rw [pow_succ]; show s.epsilon / 2 * (2 ^ j * 2) = _; rw [← I.eps]; ring,
          fun v hv => by
            obtain ⟨k, hk⟩ := p1 v hv
            obtain ⟨z, hz⟩ := I.pot v hv
            refine ⟨2 * z + k, ?_⟩
            show s1.p.get v = _
            rw [hk, hz]; push_cast; ring,
          n1,
          fun e he => by
            have h3 := a1 e he
            have h4 := I.anti e he
            show cap s1 _ - _ = -(cap s1 e - _)
            linarith,
          fun v hv => by
            have h3 := gain_add (net := net) (fun e => cap s1 e - cap s e) (fun e => cap s e - c0 e) v
            rw [g1 v hv, I.bal v hv, add_zero] at h3
            rw [← h3]
            refine congrArg (fun d => gain net d v) (funext fun e => ?_)
            show cap s1 e - c0 e = _
            ring,
          o1⟩
        (by omega) (by omega)
      rw [e2, ok_bind]
      refine ⟨_, s2, i, rfl, I2, t2.trans t1, b2, by omega, m2, ?_⟩
      have hij : i - j = i - (j + 1) + 1 := by omega
      rw [hij]
      refine ⟨?_, ?_, ?_, ?_⟩
      · show c1.phases + c2.phases = _
        rw [w1.phases, w2.phases, Nat.add_comm]
      · show c1.rounds + c2.rounds ≤ _
        rw [Nat.succ_mul, Nat.add_comm]
        exact Nat.add_le_add w2.rounds w1.rounds
      · show c1.scans + c2.scans ≤ _
        rw [Nat.succ_mul, Nat.add_comm]
        exact Nat.add_le_add w2.scans w1.scans
      · show c1.relabels + c2.relabels ≤ _
        rw [Nat.succ_mul, Nat.add_comm]
        exact Nat.add_le_add w2.relabels w1.relabels
    · rw [if_neg fun h => hlt (key.1 h)]
      exact ⟨0, s, j, rfl, I, rfl, not_le.1 hlt, le_rfl, hj, by rw [Nat.sub_self]; rfl, Nat.zero_le _, Nat.zero_le _, Nat.zero_le _⟩

/-- The potentials can be rounded to integers. -/
theorem ScInv.round {j : Nat} (ok : net.OK) (I : ScInv net c0 E0 j s) (hj : E0 * net.N < 2 ^ j) :
    ∃ π : Nat → Int, ∀ e, e < net.E → 0 < cap s e → π (net.src e) - π (net.dst e) ≤ net.cst e := by
  have two : (0 : K) < 2 ^ j := pow_pos (by norm_num) _
  have hz : ∀ v, ∃ z : Int, v < net.N → s.p.get v = z * s.epsilon := by
    intro v
    by_cases hv : v < net.N
    · obtain ⟨z, hz⟩ := I.pot v hv
      exact ⟨z, fun _ => hz⟩
    · exact ⟨0, fun h => absurd h hv⟩
  choose z hz using hz
  obtain ⟨π, hπ⟩ := exists_round net.N (2 ^ j) E0 (by rw [Nat.mul_comm]; exact hj) (fun v => z v * E0)
  refine ⟨π, fun e he hc => hπ _ _ (ok.src_lt e he) (ok.dst_lt he) _ ?_⟩
  have h1 := I.opt e he hc
  unfold rc at h1
  rw [hz _ (ok.src_lt e he), hz _ (ok.dst_lt he)] at h1
  have h2 := mul_le_mul_of_nonneg_right h1 two.le
  have h3 : ((z (net.src e) * E0 - z (net.dst e) * E0 : Int) : K) ≤ ((net.cst e * (2 ^ j : Nat) + E0 : Int) : K) := by
    push_cast
    have h4 := I.eps
    have h5 : ((net.cst e : K) - z (net.src e) * s.epsilon + z (net.dst e) * s.epsilon) * 2 ^ j =
      net.cst e * 2 ^ j - z (net.src e) * (s.epsilon * 2 ^ j) + z (net.dst e) * (s.epsilon * 2 ^ j) := by ring
    rw [h5, neg_mul, h4] at h2
    linarith
  exact_mod_cast h3

/-- A potential difference does not matter on a circulation. -/
theorem circ_pot (ok : net.OK) {d : Nat → K} (hd : ∀ e, e < net.E → d (e ^^^ 1) = -d e)
    (hg : ∀ v, v < net.N → gain net d v = 0) (π : Nat → K) :
    ∑ e ∈ Finset.range net.E, d e * (π (net.src e) - π (net.dst e)) = 0 := by
  have h1 : ∑ e ∈ Finset.range net.E, d e * π (net.src e) = 0 := by
    rw [← Finset.sum_fiberwise_of_maps_to (s := Finset.range net.E) (t := Finset.range net.N)
      (g := net.src) (fun e he => Finset.mem_range.2 (ok.src_lt e (Finset.mem_range.1 he)))]
    refine Finset.sum_eq_zero fun v hv => ?_
    have h2 : ∑ e ∈ (Finset.range net.E).filter (fun e => net.src e = v), d e * π (net.src e) = gain net d v * π v := by
      unfold gain
      rw [Finset.sum_mul]
      refine Finset.sum_congr rfl fun e he => ?_
      rw [(Finset.mem_filter.1 he).2]
    rw [h2, hg v (Finset.mem_range.1 hv), zero_mul]
  have h2 : ∑ e ∈ Finset.range net.E, d e * π (net.dst e) = ∑ e ∈ Finset.range net.E, -(d e * π (net.src e)) := by
    have hx : ∀ e ∈ Finset.range net.E, e ^^^ 1 ∈ Finset.range net.E := fun e he =>
      Finset.mem_range.2 (ok.x_lt e (Finset.mem_range.1 he))
    refine Finset.sum_nbij' (fun e => e ^^^ 1) (fun e => e ^^^ 1) hx hx (by simp) (by simp) ?_
    intro e he
    have he := Finset.mem_range.1 he
    rw [hd e he, ok.src_x e he, neg_mul, neg_neg]
  simp only [mul_sub, Finset.sum_sub_distrib]
  rw [h2, Finset.sum_neg_distrib, h1]
  simp

end AHO.CS
