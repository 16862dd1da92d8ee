import Verif.Props.Flow
/-!
# Excess and deficit in `Flow::refine`
-/

namespace AHO.Props
open Spec Flow
set_option linter.unusedSectionVars false

section
variable {K : Type} [Field K] [LinearOrder K] [IsStrictOrderedRing K]
variable {imax : Int} {n : Nat} {M : K} {U R : Int} {limits : List (OmegaLimit K)} {arcs : List (Pair K)}

/-- the excess of all nodes with excess -/
def totalExcess (n : Nat) (b : Nat → K) : K := ∑ v ∈ Finset.range (n + 1), max 0 (b v)

theorem totalExcess_eq {b : Nat → K} (h : ∑ v ∈ Finset.range (n + 1), b v = 0) :
    totalExcess n b = ∑ v ∈ Finset.range (n + 1), max 0 (-b v) := by
  have h1 : totalExcess n b - ∑ v ∈ Finset.range (n + 1), max 0 (-b v) = ∑ v ∈ Finset.range (n + 1), b v := by
    unfold totalExcess
    rw [← Finset.sum_sub_distrib]
    refine Finset.sum_congr rfl fun v _ => ?_
    rcases le_total 0 (b v) with h | h
    · rw [max_eq_right h, max_eq_left (by linarith), sub_zero]
    · rw [max_eq_left h, max_eq_right (by linarith)]; ring
  rw [h, sub_eq_zero] at h1
  exact h1

theorem totalExcess_le {b b' : Nat → K} {p : Nat} (h : ∑ v ∈ Finset.range (n + 1), b v = 0) (h' : ∑ v ∈ Finset.range (n + 1), b' v = 0)
    (hp : 0 ≤ b' p) (hb : ∀ v, v ≤ n → v ≠ p → b v ≤ b' v) : totalExcess n b' ≤ totalExcess n b := by
  rw [totalExcess_eq h, totalExcess_eq h']
  refine Finset.sum_le_sum fun v hv => ?_
  by_cases hvp : v = p
  · subst hvp
    rw [max_eq_left (by linarith)]
    exact le_max_left _ _
  · have := hb v (by simp at hv; omega) hvp
    exact max_le_max le_rfl (by linarith)

theorem exists_neg {b : Nat → K} {p : Nat} (hp : p ≤ n) (h : ∑ v ∈ Finset.range (n + 1), b v = 0) (h0 : 0 < b p) : ∃ v, v ≤ n ∧ b v < 0 := by
  by_contra hc
  push Not at hc
  have := Finset.sum_pos' (f := b) (s := Finset.range (n + 1)) (fun v hv => hc v (by simp at hv; omega)) ⟨p, by simp; omega, h0⟩
  linarith

theorem AInv.sum_zero {E : FEmb K K} {C : K} {net : Net K} {h : Int} {s : Flow K} {f w : Nat → K} {τ : Nat → Nat} (ok : net.OK)
    (A : AInv E C net h s f w τ) : ∑ v ∈ Finset.range (net.n + 1), s.imbalances.get v = 0 := by
  rw [Finset.sum_congr rfl fun v hv => A.I.cons v (by simp at hv; omega), Finset.sum_neg_distrib, sum_excess_all ok A.I.anti, neg_zero]

/-- C89. In every phase, before every round of the loop of `refine`: the imbalances of all nodes add up to `0`, and a node with a deficit has the potential which it
had at the beginning of the phase. The queue contains no node twice and at most `n` of the `n + 1` nodes. A round takes excess from the front node `p` only:
`p` has excess before and no deficit afterwards, and no other imbalance decreases. So the sum of all excesses never increases, and a node with a deficit after the round has had it before.
There is a node the potential of which is the same in all rounds of the phase. -/
theorem C89_excess (I : NetInput imax n M U R limits arcs) :
    ∃ N, ∀ fuel, N ≤ fuel → ∃ s, Flow.mk' imax fuel n M U limits = .ok s ∧ ∀ k, k < phaseCount n U →
      ∃ s₁ s₂, iterN (Flow.phase imax fuel) k s = .ok s₁ ∧ pushAllAdmissibleEdge imax (initialization s₁) = .ok s₂ ∧
      ∃ J, whileLoop (fun s : Flow K => .ok (!s.uq.empty)) (refineStep imax fuel) fuel s₂ = iterN (refineStep imax fuel) J s₂ ∧
        (∀ j, j ≤ J → ∃ s', iterN (refineStep imax fuel) j s₂ = .ok s' ∧
          ∑ v ∈ Finset.range (n + 1), s'.imbalances.get v = 0 ∧
          (∀ v, v ≤ n → s'.imbalances.get v < 0 → s'.scaling.get v = s₁.scaling.get v) ∧
          s'.uq.queue.Nodup ∧ s'.uq.queue.length ≤ n ∧
          (j < J → ∃ p s'', s'.uq.front = .ok p ∧ refineStep imax fuel s' = .ok s'' ∧ p ≤ n ∧ 0 < s'.imbalances.get p ∧
            0 ≤ s''.imbalances.get p ∧ s''.imbalances.get p ≤ s'.imbalances.get p ∧
            (∀ v, v ≤ n → v ≠ p → s'.imbalances.get v ≤ s''.imbalances.get v) ∧
            totalExcess n s''.imbalances.get ≤ totalExcess n s'.imbalances.get ∧
            ∀ v, v ≤ n → s''.imbalances.get v < 0 → s'.imbalances.get v < 0)) ∧
        ∃ v, v ≤ n ∧ ∀ j, j ≤ J → ∃ s', iterN (refineStep imax fuel) j s₂ = .ok s' ∧ s'.scaling.get v = s₁.scaling.get v := by
  refine ⟨minFuel n limits.length U R (2 * ((n : Int) + 1) * R), fun fuel hf => ?_⟩
  obtain ⟨s, B, e1, e2, e3, e4, e5⟩ := NetInput.phases I hf
  refine ⟨s, e1, fun k hk => ?_⟩
  have hk' : k < epsExp n U := hk
  obtain ⟨s₁, a1, ⟨C, hC, P⟩, a3, a4⟩ := e5 k hk'.le
  obtain ⟨St, hph⟩ := a4 hk
  have h2 : (2 : Int) ^ (epsExp n U - k) = 2 * 2 ^ (epsExp n U - 1 - k) := by
    rw [show epsExp n U - k = (epsExp n U - 1 - k) + 1 by omega, pow_succ]; ring
  have hdiv : s₁.epsilon.tdiv 2 = 2 ^ (epsExp n U - 1 - k) := by
    rw [a3, h2, Int.mul_tdiv_cancel_left _ (by norm_num)]
  have ok := inputNet_ok I
  obtain ⟨ed, rm⟩ := room_id (net := inputNet n M limits arcs)
    (C := C - (inputNet n M limits arcs).E * (inputNet n M limits arcs).M) I.M_nonneg (by linarith)
  obtain ⟨s₂, f, w, b1, b2, -⟩ := P.begin ok rm hdiv St
  have hfu := phaseFuel_ge (net := inputNet n M limits arcs) (relabels n B k)
  obtain ⟨J, hJ, hr⟩ := RInv.rounds ok rm (hfu.1.trans hph) (hfu.2.trans hph) St _ s₂ f w _ _ b2 rfl
  have hJ' : J < fuel := lt_of_le_of_lt hJ ((measR_lt _).trans_le hph)
  have hn : (inputNet n M limits arcs).n = n := rfl
  -- a node in the queue, and one with a deficit
  have key : ∀ j, j ≤ J → ∃ s', iterN (refineStep imax fuel) j s₂ = .ok s' ∧
          ∑ v ∈ Finset.range (n + 1), s'.imbalances.get v = 0 ∧
          (∀ v, v ≤ n → s'.imbalances.get v < 0 → s'.scaling.get v = s₁.scaling.get v) ∧
          s'.uq.queue.Nodup ∧ s'.uq.queue.length ≤ n ∧
          (j < J → ∃ p s'', s'.uq.front = .ok p ∧ refineStep imax fuel s' = .ok s'' ∧ p ≤ n ∧ 0 < s'.imbalances.get p ∧
            0 ≤ s''.imbalances.get p ∧ s''.imbalances.get p ≤ s'.imbalances.get p ∧
            (∀ v, v ≤ n → v ≠ p → s'.imbalances.get v ≤ s''.imbalances.get v) ∧
            totalExcess n s''.imbalances.get ≤ totalExcess n s'.imbalances.get ∧
            (∀ v, v ≤ n → s''.imbalances.get v < 0 → s'.imbalances.get v < 0) ∧
            ∀ v, v ≠ p → s''.scaling.get v = s'.scaling.get v) := by
    intro j hj
    obtain ⟨s', f', w', τ', k', c1, c2, c3, -⟩ := hr j hj
    have hsum := AInv.sum_zero ok c2.A
    rw [hn] at hsum
    have hlt : ∀ v ∈ s'.uq.queue, v ≤ n := by
      intro v hv
      have := c2.A.uok.lt v hv
      rw [c2.A.I.st.qsz, hn] at this
      omega
    refine ⟨s', c1, hsum, fun v hv h0 => ?_, c2.A.uok.nodup, ?_, fun hjJ => ?_⟩
    · rw [c2.sc v hv, c2.neg v hv h0]; simp
    · by_cases hq : s'.uq.queue = []
      · rw [hq]; simp
      · obtain ⟨p, hp⟩ := List.exists_mem_of_ne_nil _ hq
        have hp0 := (c2.A.mem p (hlt p hp)).1 hp
        obtain ⟨u, hu, hu0⟩ := exists_neg (hlt p hp) hsum hp0
        have hsub : s'.uq.queue.toFinset ⊆ (Finset.range (n + 1)).erase u := by
          intro v hv
          rw [List.mem_toFinset] at hv
          have h1 := (c2.A.mem v (hlt v hv)).1 hv
          rw [Finset.mem_erase, Finset.mem_range]
          exact ⟨by rintro rfl; exact absurd h1 (not_lt.2 hu0.le), by have := hlt v hv; omega⟩
        have h3 := Finset.card_le_card hsub
        rw [List.toFinset_card_of_nodup c2.A.uok.nodup, Finset.card_erase_of_mem (by simp; omega), Finset.card_range] at h3
        omega
    · have hq := c3.1 hjJ
      cases hq' : s'.uq.queue with
      | nil => exact absurd hq' hq
      | cons p xs =>
        obtain ⟨s'', f'', w'', τ'', k'', g1, g2, -, g4, -, g6, g7⟩ := c2.step ok rm (hfu.1.trans hph) (hfu.2.trans hph) St hq'
        have hp : p ≤ n := hlt p (by rw [hq']; simp)
        have hp0 := (c2.A.mem p hp).1 (by rw [hq']; simp)
        have hsum' := AInv.sum_zero ok g2.A
        rw [hn] at hsum'
        refine ⟨p, s'', UQ.front_spec hq', g1, hp, hp0, g6, ?_, g7, totalExcess_le hsum hsum' g6 g7, fun v hv h0 => ?_, fun v hv => ?_⟩
        · have hm : p ∈ Finset.range (n + 1) := by simp; omega
          rw [← Finset.add_sum_erase _ _ hm] at hsum hsum'
          have := Finset.sum_le_sum (s := (Finset.range (n + 1)).erase p) (f := s'.imbalances.get) (g := s''.imbalances.get)
            fun v hv => g7 v (by have := Finset.mem_of_mem_erase hv; rw [Finset.mem_range] at this; exact Nat.le_of_lt_succ this) (Finset.ne_of_mem_erase hv)
          linarith
        · have hvp : v ≠ p := by rintro rfl; exact absurd h0 (not_lt.2 g6)
          exact (g7 v hv hvp).trans_lt h0
        · rcases g4 with g | g
          · rw [g]
          · rw [g, Vec.set_get_ne _ _ hv]
  refine ⟨s₁, s₂, a1, b1, J, whileLoop_iterN (fun j hj => ?_) hJ', fun j hj => ?_, ?_⟩
  · obtain ⟨s', -, -, -, -, c1, -, c3, -⟩ := hr j hj
    refine ⟨s', c1, ?_⟩
    congr 1
    by_cases hjJ : j < J
    · rw [decide_eq_true hjJ]
      have := c3.1 hjJ
      simp [UQ.empty, this]
    · rw [decide_eq_false hjJ]
      have : s'.uq.queue = [] := by
        by_contra hne; exact hjJ (c3.2 hne)
      simp [UQ.empty, this]
  · obtain ⟨s', d1, d2, d3, d4, d5, d6⟩ := key j hj
    refine ⟨s', d1, d2, d3, d4, d5, fun hjJ => ?_⟩
    obtain ⟨p, s'', t1, t2, t3, t4, t5, t6, t7, t8, t9, -⟩ := d6 hjJ
    exact ⟨p, s'', t1, t2, t3, t4, t5, t6, t7, t8, t9⟩
  · -- a node with a deficit before the last round
    have back : ∀ i, i < J → ∀ v, v ≤ n → (∃ s', iterN (refineStep imax fuel) i s₂ = .ok s' ∧ s'.imbalances.get v < 0) →
        ∀ j, j ≤ i → ∃ s', iterN (refineStep imax fuel) j s₂ = .ok s' ∧ s'.imbalances.get v < 0 := by
      intro i
      induction i with
      | zero =>
        intro _ v _ h j hj
        obtain rfl : j = 0 := by omega
        exact h
      | succ i ih =>
        intro hi v hv h j hj
        rcases Nat.lt_or_ge i j with hij | hij
        · obtain rfl : j = i + 1 := by omega
          exact h
        · refine ih (by omega) v hv ?_ j hij
          obtain ⟨s', d1, -, -, -, -, d6⟩ := key i (by omega)
          obtain ⟨p, s'', t1, t2, t3, t4, t5, t6, t7, t8, t9, -⟩ := d6 (by omega)
          obtain ⟨s3, r1, r2⟩ := h
          change (iterN (refineStep imax fuel) i s₂ >>= refineStep imax fuel) = _ at r1
          rw [d1, ok_bind, t2] at r1
          cases r1
          exact ⟨s', d1, t9 v hv r2⟩
    rcases Nat.eq_zero_or_pos J with h0 | hpos
    · refine ⟨0, by omega, fun j hj => ?_⟩
      obtain rfl : j = 0 := by omega
      exact ⟨s₂, rfl, by rw [b2.sc 0 (Nat.zero_le _)]; simp⟩
    · obtain ⟨s', d1, d2, d3, -, -, d6⟩ := key (J - 1) (by omega)
      obtain ⟨p, s'', t1, t2, t3, t4, t5, t6, t7, t8, t9, t10⟩ := d6 (by omega)
      obtain ⟨v, hv, hv0⟩ := exists_neg t3 d2 t4
      refine ⟨v, hv, fun j hj => ?_⟩
      rcases Nat.lt_or_ge j J with hjJ | hjJ
      · obtain ⟨s3, r1, r2⟩ := back (J - 1) (by omega) v hv ⟨s', d1, hv0⟩ j (by omega)
        obtain ⟨s4, q1, -, q3, -⟩ := key j hj
        rw [q1] at r1
        rw [← Except.ok.inj r1] at r2
        exact ⟨s4, q1, q3 v hv r2⟩
      · obtain rfl : j = J := by omega
        refine ⟨s'', ?_, ?_⟩
        · obtain ⟨m, rfl⟩ : ∃ m, j = m + 1 := ⟨j - 1, by omega⟩
          change (iterN (refineStep imax fuel) m s₂ >>= refineStep imax fuel) = _
          rw [show iterN (refineStep imax fuel) m s₂ = .ok s' from d1, ok_bind, t2]
        · rw [t10 v (by rintro rfl; exact absurd hv0 (not_lt.2 t4.le)), d3 v hv hv0]

end

/-- The hypothesis is met by the example network, which has four phases. -/
example : NetInput (2 ^ 31 - 1) 2 (10 : ℚ) 2 2 exLimits exArcs ∧ phaseCount 2 2 = 4 := ⟨exArcs_input, by decide +kernel⟩

/-- the imbalances, the queue and the potentials before the round `j` of the first phase -/
def excessAt (j : Nat) : Res (List ℚ × List Nat × List Int) := do
  let s ← Flow.mk' (2 ^ 31 - 1) 40 2 (10 : ℚ) 2 exLimits
  let s ← pushAllAdmissibleEdge (2 ^ 31 - 1) (initialization s)
  let s ← iterN (refineStep (2 ^ 31 - 1) 40) j s
  .ok ((List.range 3).map s.imbalances.get, s.uq.queue, (List.range 3).map s.scaling.get)

/-- There the first phase takes five rounds: the excess is 10, 10, 9, 2, 2, 0, and node 2 keeps its potential. -/
example : (List.range 6).map excessAt = [.ok ([-1, 10, -9], [1], [0, 0, 0]), .ok ([-1, 10, -9], [1], [0, 8, 0]), .ok ([2, 7, -9], [1, 0], [0, 8, 0]),
    .ok ([2, 0, -2], [0], [0, 8, 0]), .ok ([2, 0, -2], [0], [8, 8, 0]), .ok ([0, 0, 0], [], [8, 8, 0])] := by
  decide +kernel

end AHO.Props
