import Verif.Proof.SolverTime
import Verif.Props.RunningTime
/-!
# Running time of the whole solver
-/

namespace AHO
open Spec Props
open LCT (bind_ok)
set_option linter.unusedSectionVars false

/-- the cost of the phases on `n + 1` nodes and `m` arcs, with `b` raises of a potential in `k` phases, and `i` further iterations and `v` further
evaluations -/
structure Heavy (c : Cost) (n m b k i v : Nat) : Prop where
  rounds : c.rounds ≤ b * (6 * m + n + 1) + k * (4 * m + n + 1)
  steps : (c.steps : ℝ) ≤ 9 * (42 * Real.logb 2 (n + 2) + 11) * c.rounds
  walk : c.walk ≤ 3 * (n + 1) * c.rounds
  iters : c.iters ≤ c.rounds + 4 * m * b + k * (4 * m + 3 * n + 3) + i
  evals : c.evals ≤ 6 * c.rounds + 2 * (4 * m * b + k * (4 * m + 3 * n + 3)) + v

theorem Heavy.light {c d : Cost} {n m b k i v j w : Nat} (h : Heavy c n m b k i v) (l : Light d j w) : Heavy (d + c) n m b k (j + i) (w + v) := by
  have e1 : (d + c).rounds = c.rounds := by rw [Flow.Cost.add_rounds, l.rounds, Nat.zero_add]
  have e2 : (d + c).steps = c.steps := by rw [Flow.Cost.add_steps, l.steps, Nat.zero_add]
  have e3 : (d + c).walk = c.walk := by rw [Flow.Cost.add_walk, l.walk, Nat.zero_add]
  refine ⟨by rw [e1]; exact h.rounds, by rw [e1, e2]; exact h.steps, by rw [e1, e3]; exact h.walk, ?_, ?_⟩
  · rw [e1, Flow.Cost.add_iters]; have := h.iters; have := l.iters; omega
  · rw [e1, Flow.Cost.add_evals]; have := h.evals; have := l.evals; omega

theorem Cost.add_comm' (c d : Cost) : c + d = d + c := by
  show Cost.mk _ _ _ _ _ = Cost.mk _ _ _ _ _
  simp only [Cost.mk.injEq]
  exact ⟨Nat.add_comm _ _, Nat.add_comm _ _, Nat.add_comm _ _, Nat.add_comm _ _, Nat.add_comm _ _⟩

theorem Cost.add_assoc' (c d e : Cost) : c + d + e = c + (d + e) := by
  show Cost.mk _ _ _ _ _ = Cost.mk _ _ _ _ _
  simp only [Cost.mk.injEq]
  exact ⟨Nat.add_assoc _ _ _, Nat.add_assoc _ _ _, Nat.add_assoc _ _ _, Nat.add_assoc _ _ _, Nat.add_assoc _ _ _⟩

theorem Heavy.mono {c : Cost} {n m b k i v m' b' k' i' v' : Nat} (h : Heavy c n m b k i v) (hm : m ≤ m') (hb : b ≤ b') (hk : k ≤ k')
    (hi : i ≤ i') (hv : v ≤ v') : Heavy c n m' b' k' i' v' := by
  refine ⟨h.rounds.trans ?_, h.steps, h.walk, h.iters.trans ?_, h.evals.trans ?_⟩ <;> gcongr

theorem Heavy.zero (n m b k : Nat) : Heavy 0 n m b k 0 0 :=
  ⟨Nat.zero_le _, by show ((0 : Nat) : ℝ) ≤ _ * ((0 : Nat) : ℝ); simp, Nat.zero_le _, Nat.zero_le _, Nat.zero_le _⟩

variable {K : Type} [Field K] [LinearOrder K] [IsStrictOrderedRing K]
variable {imax : Int} {n : Nat} {R W U : Int}

theorem phaseCount_mono (h : U ≤ W) : phaseCount n U ≤ phaseCount n W := by
  unfold phaseCount
  exact Nat.clog_mono_right 2 (Nat.mul_le_mul_left _ (by omega))

theorem raises_general (hUW : U ≤ W) : raises n U W ≤ 2 * n * W.toNat + n + 1 + phaseCount n W * (3 * n + 1) := by
  have h := phaseCount_mono (n := n) hUW
  unfold raises
  split
  · have := Nat.mul_le_mul_right (3 * n + 1) h; omega
  · have := Nat.mul_le_mul_right (3 * n + 1) (show phaseCount n U - 1 ≤ phaseCount n W by omega); omega

theorem raises_near (hUW : U ≤ W) (hR : R ≤ U) : raises n U R ≤ phaseCount n W * (3 * n + 1) := by
  unfold raises
  rw [if_pos hR]
  exact Nat.mul_le_mul_right _ (phaseCount_mono hUW)

namespace ProblemSolver

/-- the cost of the part of `solve` after `merge_limits` -/
theorem limits_time {limits : List (OmegaLimit K)} {ps : List (Pair K)} {fuel L b : Nat}
    (hrep : List.Forall₂ OmegaLimit.Is limits ps) (g : ∀ p ∈ ps, ArcIn n R W p) (hR0 : 0 ≤ R) (hRW : R ≤ W)
    (hcap : 6 * ((n : Int) + 1) * (bitCeil ((n + 1) * W.toNat) : Nat) ≤ imax) (hbits : Flow.bits R < fuel)
    (hfuel : ∀ U, 1 ≤ U → U ≤ W → (∀ p ∈ ps, p.u - p.l ≤ U) → Flow.minFuel n limits.length U R (2 * ((n : Int) + 1) * R) ≤ fuel)
    (hL : W < 2 ^ L) (hb : ∀ U, 1 ≤ U → U ≤ W → (∀ p ∈ ps, p.u - p.l ≤ U) → raises n U R ≤ b)
    {c2 c3 c4 : Cost} {vcm M v : K} {flow flow' : Flow K} (e1 : calcC imax fuel limits = .ok (c2, vcm, M, U))
    (e2 : Flow.mkC imax fuel n M U limits = .ok (c3, flow)) (e3 : Flow.minCostC imax fuel flow = .ok (c4, v, flow')) :
    Heavy (c2 + c3 + c4) n limits.length b (phaseCount n W)
      (limits.length * (1 + L) + (phaseCount n W + (n + 1) + 3 * limits.length) + 2 * limits.length * (1 + L))
      (limits.length * (5 + 2 * L) + 2 * limits.length * (2 * L + 1)) := by
  have hlen : limits.length = ps.length := hrep.length_eq
  set bc : Int := ((bitCeil ((n + 1) * W.toNat) : Nat) : Int) with hbc
  have hb1 : 1 ≤ bc := by have := bitCeil_pos ((n + 1) * W.toNat); omega
  have hbW : ((n : Int) + 1) * W ≤ bc := bitCeil_ge (by omega)
  have hW1 : W ≤ ((n : Int) + 1) * W := by
    have : (0 : Int) ≤ n * W := Int.mul_nonneg (by omega) (by omega)
    have h' : ((n : Int) + 1) * W = n * W + W := by ring
    omega
  have hbig : ((n : Int) + 1) * 1 ≤ ((n : Int) + 1) * bc := Int.mul_le_mul_of_nonneg_left hb1 (by omega)
  have hnb : 0 ≤ (n : Int) * bc := Int.mul_nonneg (by omega) (by omega)
  have hcap' : 6 * ((n : Int) * bc) + 6 * bc ≤ imax := by
    have : 6 * ((n : Int) + 1) * bc = 6 * ((n : Int) * bc) + 6 * bc := by ring
    omega
  have hR2 : 2 * R ≤ imax := by omega
  have hN : 2 * ((n : Int) + 1) ≤ imax := by
    have : ((n : Int) + 1) * bc = (n : Int) * bc + bc := by ring
    omega
  have hshort : ∀ o ∈ limits, Short L o.l o.u := by
    intro o ho
    obtain ⟨k, hk, rfl⟩ := List.getElem_of_mem ho
    have h := (List.forall₂_iff_get.1 hrep).2 k hk (hlen ▸ hk)
    simp only [List.get_eq_getElem] at h
    have a := g _ (List.getElem_mem (hlen ▸ hk))
    have := a.le
    have := a.wd
    rw [h.l, h.u]
    exact ⟨by omega, by omega⟩
  obtain ⟨U', d1, d2, d3, d4⟩ := calcLoop_spec (imax := imax) (fuel := fuel) hR2 hbits limits ps 0 1 0 hrep g
  have d1' := (calcLoopC_er imax fuel limits (0, 1, 0)).to_ok e1
  rw [d1] at d1'
  have hM := bigM_pos g
  obtain ⟨-, rfl, rfl⟩ : _ ∧ bigM ps = M ∧ U' = U := by
    have h := Except.ok.inj d1'
    simp only [Prod.mk.injEq] at h
    exact ⟨h.1, h.2.1, h.2.2⟩
  have l2 := calcLoopC_light _ _ hshort e1
  have heps : (2 : Int) ^ Flow.epsExp n U' ≤ imax ∧ Flow.epsExp n U' < fuel := by
    by_cases hU : U' = 0
    · rw [hU, show Flow.epsExp n 0 = 0 by simp [Flow.epsExp]]
      exact ⟨by simp; omega, by omega⟩
    · have hU1 : 1 ≤ U' := by omega
      have hUW : U' ≤ W := by
        rcases d4 with h | ⟨p, hp, h⟩
        · omega
        · have := (g p hp).wd; omega
      have ht := pow_exp_le (n := n) hU1 hUW
      rw [← hbc] at ht
      have hge := (exp_le (n := n) hU1 hUW).2
      have : (2 : Int) ^ Flow.epsExp n U' = 2 ^ (Flow.epsExp n U' - 1) * 2 := by
        rw [← pow_succ, Nat.sub_add_cancel hge]
      have hf := hfuel U' hU1 hUW d3
      unfold Flow.minFuel at hf
      exact ⟨by omega, by omega⟩
  obtain ⟨s, f1, f2, f3, f4, f5, -⟩ := Flow.mk'_spec (FEmb.id K) trivial (gs := fun k => (ps.getD k default).B) (U := U') (fuel := fuel) hM.le d2
    (Flow.limOK_of hrep (arcOK_of g)) (by omega) hN heps.1 heps.2 (le_refl (2 * ((n : Int) + 1) * R))
  have f6 := (Flow.mkC_er imax fuel n (bigM ps) U' limits).to_ok e2
  rw [f1] at f6
  obtain rfl : s = flow := Except.ok.inj f6
  have hUW : U' ≤ W := by
    rcases d4 with h | ⟨p, hp, h⟩
    · omega
    · have := (g p hp).wd; omega
  have hkW := phaseCount_mono (n := n) hUW
  have l3 := (Flow.mkC_light e2 f2 f5.st.esz).mono (j := phaseCount n W + (n + 1) + 3 * limits.length) (w := 0)
    (by
      have : phaseCount n U' = Flow.epsExp n U' := rfl
      omega) le_rfl
  unfold Flow.minCostC at e3
  obtain ⟨⟨c5, s1⟩, g1, e3⟩ := bind_ok e3
  obtain ⟨⟨c6, a6, s6⟩, g2, e3⟩ := bind_ok e3
  cases e3
  have key : Heavy c5 n limits.length b (phaseCount n W) 0 0 ∧ Flow.Static (Flow.inputNet n (bigM ps) limits ps) s1 := by
    by_cases hU : U' = 0
    · subst hU
      obtain ⟨fuel, rfl⟩ : ∃ m, fuel = m + 1 := ⟨fuel - 1, by omega⟩
      unfold Flow.phasesC whileLoop at g1
      rw [ok_bind] at g1
      dsimp only at g1
      rw [f2, show Flow.epsExp n 0 = 0 by simp [Flow.epsExp]] at g1
      simp only [pow_zero, ge_iff_le, show ¬ (2 : Int) ≤ 1 by decide, decide_false] at g1
      cases g1
      exact ⟨Heavy.zero .., f5.st⟩
    · have hU1 : 1 ≤ U' := by omega
      have ht := pow_exp_le (n := n) hU1 hUW
      rw [← hbc] at ht
      have hge := (exp_le (n := n) hU1 hUW).2
      have I : NetInput imax n (bigM ps) U' R limits ps :=
        ⟨hrep, arcOK_of g, hM.le, hR0, hU1, ⟨hR2, hN, by rw [Flow.epsilon₀_eq]; exact heps.1, by
          rw [Flow.epsilon₀_half hU1]
          have hRb : 2 * ((n : Int) + 1) * R ≤ 2 * bc := by
            have : ((n : Int) + 1) * R ≤ ((n : Int) + 1) * W := Int.mul_le_mul_of_nonneg_left hRW (by omega)
            have h' : 2 * ((n : Int) + 1) * R = 2 * (((n : Int) + 1) * R) := by ring
            omega
          have h1 : (n : Int) * (2 * ((n : Int) + 1) * R + 2 ^ (Flow.epsExp n U' - 1)) ≤ n * (2 * bc + bc) :=
            Int.mul_le_mul_of_nonneg_left (by omega) (by omega)
          have h2 : (3 * (n : Int) + 1) * (2 ^ (Flow.epsExp n U' - 1) - 1) ≤ (3 * (n : Int) + 1) * bc :=
            Int.mul_le_mul_of_nonneg_left (by omega) (by omega)
          have h3 : (n : Int) * (2 * bc + bc) = 3 * (n * bc) := by ring
          have h4 : (3 * (n : Int) + 1) * bc = 3 * (n * bc) + bc := by ring
          omega⟩⟩
      obtain ⟨s', c, s'', t1, t2, t3, t4, t5, t6, t7, t8⟩ := phases_time I (hfuel U' hU1 hUW d3)
      rw [f1] at t1
      obtain rfl : s = s' := Except.ok.inj t1
      rw [g1] at t2
      obtain ⟨rfl, rfl⟩ : c5 = c ∧ s1 = s'' := by
        have h := Except.ok.inj t2
        simpa using h
      refine ⟨?_, t3⟩
      have hh : Heavy c5 n limits.length (raises n U' R) (phaseCount n U') 0 0 := by
        rw [hlen]
        exact ⟨t4, t5, t6, by omega, by omega⟩
      exact hh.mono le_rfl (hb U' hU1 hUW d3) hkW le_rfl le_rfl
  obtain ⟨key, st⟩ := key
  obtain ⟨c7, h7, l7⟩ := Flow.minsC_light (L := L) _ _ (fun e he => by
    rw [st.esz] at he
    rw [st.el e he, st.eu e he]
    have he : e < 2 * limits.length := he
    have hk : e / 2 < limits.length := by omega
    have hd : limits.getD (e / 2) default = limits[e / 2] := by
      simp [List.getD_eq_getElem?_getD, List.getElem?_eq_getElem hk]
    have hs := hshort _ (List.getElem_mem hk)
    show Short L (if e % 2 = 0 then (limits.getD (e / 2) default).l else -(limits.getD (e / 2) default).u)
      (if e % 2 = 0 then (limits.getD (e / 2) default).u else -(limits.getD (e / 2) default).l)
    rw [hd]
    obtain ⟨s1, s2⟩ := hs
    split
    · exact ⟨s1, s2⟩
    · exact ⟨by omega, by omega⟩) g2
  have hsz : s1.edges.size = 2 * limits.length := st.esz
  rw [hsz] at l7
  have h7 : c6 = 0 + c7 := h7
  have e0 : (0 : Cost) + c7 = c7 := by
    show Cost.mk _ _ _ _ _ = _
    cases c7
    simp only [Cost.mk.injEq]
    exact ⟨Nat.zero_add _, Nat.zero_add _, Nat.zero_add _, Nat.zero_add _, Nat.zero_add _⟩
  rw [h7, e0, Cost.add_assoc', Cost.add_comm' c5 c7]
  refine (((key.light l7).light l3).light l2).mono le_rfl le_rfl le_rfl (by omega) (by omega)

/-- iterations outside the phases -/
def restIters (n p k Li L : Nat) : Nat := 3 * n + 1 + p * (3 + Li) + (p + n) * (6 + 3 * L) + k

/-- evaluations outside the phases -/
def restEvals (n p Li L : Nat) : Nat := 2 * p * Li + (p + n) * (7 + 6 * L)

theorem run_time_of {P : Problem K} {Mus : List (MuLimit K)} {Omegas : List (OmegaLimit K)} {fuel b k Li L : Nat}
    (rep : Represents P Mus Omegas) (ri : Representable imax P) (hLi : imax < 2 ^ Li)
    (hlim : ∀ limits, front imax fuel P.n Mus Omegas = .ok (some limits) → limits.length ≤ P.pairs.length + P.n ∧
      ∀ {c2 c3 c4 : Cost} {vcm M v : K} {U : Int} {flow flow' : Flow K}, calcC imax fuel limits = .ok (c2, vcm, M, U) →
        Flow.mkC imax fuel P.n M U limits = .ok (c3, flow) → Flow.minCostC imax fuel flow = .ok (c4, v, flow') →
        Heavy (c2 + c3 + c4) P.n limits.length b k
          (limits.length * (1 + L) + (k + (P.n + 1) + 3 * limits.length) + 2 * limits.length * (1 + L))
          (limits.length * (5 + 2 * L) + 2 * limits.length * (2 * L + 1)))
    {c : Cost} {r : Option K} (e : runC imax fuel P.n Mus Omegas = .ok (c, r)) :
    Heavy c P.n (P.pairs.length + P.n) b k (restIters P.n P.pairs.length k Li L) (restEvals P.n P.pairs.length Li L) := by
  have hlen : Omegas.length = P.pairs.length := rep.omegas.length_eq
  unfold runC at e
  obtain ⟨⟨c1, s⟩, e1, e⟩ := bind_ok e
  obtain ⟨⟨c2, r2⟩, e2, e⟩ := bind_ok e
  cases e
  have hw : ∀ o ∈ Omegas, o.u - o.l < 2 ^ Li := by
    intro o ho
    obtain ⟨k, hk, rfl⟩ := List.getElem_of_mem ho
    have h := (List.forall₂_iff_get.1 rep.omegas).2 k hk (hlen ▸ hk)
    simp only [List.get_eq_getElem] at h
    have := ri.width _ (List.getElem_mem (hlen ▸ hk))
    rw [h.l, h.u]
    omega
  obtain ⟨l1, hs⟩ := mkC_light hw e1
  rw [hlen] at l1 hs
  unfold restIters restEvals
  set p := P.pairs.length
  set n := P.n
  have r1 : p * (3 + Li) = 2 * p + p * (1 + Li) := by ring
  have r2 : 2 * p * Li = p * (2 * Li) := by ring
  rw [r1, r2]
  have r3 : ∀ m, m ≤ p + n → m * (1 + L) + (k + (n + 1) + 3 * m) + 2 * m * (1 + L) ≤ n + 1 + (p + n) * (6 + 3 * L) + k := by
    intro m hm
    have : m * (1 + L) + (k + (n + 1) + 3 * m) + 2 * m * (1 + L) = n + 1 + m * (6 + 3 * L) + k := by ring
    have := Nat.mul_le_mul_right (6 + 3 * L) hm
    omega
  have r4 : ∀ m, m ≤ p + n → m * (5 + 2 * L) + 2 * m * (2 * L + 1) ≤ (p + n) * (7 + 6 * L) := by
    intro m hm
    have : m * (5 + 2 * L) + 2 * m * (2 * L + 1) = m * (7 + 6 * L) := by ring
    have := Nat.mul_le_mul_right (7 + 6 * L) hm
    omega
  unfold solveC at e2
  split at e2
  · cases e2
    exact ((Heavy.zero n _ b k).light l1).mono le_rfl le_rfl le_rfl (by omega) (by omega)
  · rename_i hne
    obtain ⟨hn, hO⟩ : s.n = n ∧ s.Omegas.length = p := hs.resolve_left hne
    obtain ⟨⟨c3, r3'⟩, e3, e2⟩ := bind_ok e2
    have l3 := mergeLimitsC_light e3
    rw [hn, hO] at l3
    cases r3' with
    | none =>
      cases e2
      exact (((Heavy.zero n _ b k).light l3).light l1).mono le_rfl le_rfl le_rfl (by omega) (by omega)
    | some limits =>
      dsimp only at e2
      obtain ⟨⟨c4, vcm, M, U⟩, e4, e2⟩ := bind_ok e2
      obtain ⟨⟨c5, flow⟩, e5, e2⟩ := bind_ok e2
      obtain ⟨⟨c6, v, flow'⟩, e6, e2⟩ := bind_ok e2
      cases e2
      have hf : front imax fuel n Mus Omegas = .ok (some limits) := by
        unfold front
        rw [(mkC_er imax fuel n Mus Omegas).to_ok e1, ok_bind, if_neg hne]
        exact (mergeLimitsC_er imax s).to_ok e3
      obtain ⟨hm, hH⟩ := hlim limits hf
      rw [hn] at e5
      have H := hH e4 e5 e6
      rw [Cost.add_assoc' c3, Cost.add_assoc' c3]
      have := r3 _ hm
      have := r4 _ hm
      exact ((H.light l3).light l1).mono hm le_rfl le_rfl (by omega) (by omega)

/-- the running time in general -/
theorem run_time {P : Problem K} {Mus : List (MuLimit K)} {Omegas : List (OmegaLimit K)} {fuel Li L : Nat}
    (rep : Represents P Mus Omegas) (wf : WellFormed P) (cv : ConvexCosts P) (wi : Within P W) (wd : Widths P W)
    (ri : Representable imax P) (hn : P.n + 1 < 2 ^ 64) (hW0 : 0 ≤ W) (hLi : imax < 2 ^ Li) (hL : W < 2 ^ L)
    (hcap : 6 * ((P.n : Int) + 1) * (bitCeil ((P.n + 1) * W.toNat) : Nat) ≤ imax)
    (hfuel : solveFuel P.n (P.pairs.length + P.n) imax W ≤ fuel) :
    ∃ c r, runC imax fuel P.n Mus Omegas = .ok (c, r) ∧
      Heavy c P.n (P.pairs.length + P.n) (2 * P.n * W.toNat + P.n + 1 + phaseCount P.n W * (3 * P.n + 1)) (phaseCount P.n W)
        (restIters P.n P.pairs.length (phaseCount P.n W) Li L) (restEvals P.n P.pairs.length Li L) := by
  obtain ⟨r, r1, -⟩ := run_spec rep wf cv wi wd ri hn hW0 le_rfl hcap hfuel
  obtain ⟨c, hc⟩ := (runC_er imax fuel P.n Mus Omegas).of_ok r1
  refine ⟨c, r, hc, run_time_of rep ri hLi (fun limits hl => ?_) hc⟩
  have hbits : Flow.bits imax < fuel := by unfold solveFuel at hfuel; omega
  have hR2 := capacity_range hW0 le_rfl hcap
  rcases front_spec rep wf cv wi wd ri hn hW0 hR2 hbits with ⟨h1, h2⟩ | ⟨limits', ps, h1, h2, h3, h4, h5, h6, -⟩
  · rw [h1] at hl; cases hl
  · rw [h1] at hl
    cases hl
    have hf := le_trans (le_trans (solveFuel_mono h4) (solveFuel_mono' (R' := imax) (show W ≤ imax by omega))) hfuel
    exact ⟨h4, fun e1 e2 e3 => limits_time h2 h3 hW0 le_rfl hcap (by unfold solveFuel at hf; omega)
      (fun _ u1 u2 _ => (minFuel_le u1 u2 hW0 le_rfl _).trans hf) hL (fun _ _ u2 _ => raises_general u2) e1 e2 e3⟩

/-- the running time when the ranges contain zero -/
theorem run_time_near {P : Problem K} {Mus : List (MuLimit K)} {Omegas : List (OmegaLimit K)} {fuel Li L : Nat}
    (rep : Represents P Mus Omegas) (wf : WellFormed P) (cv : ConvexCosts P) (wi : Within P W) (wd : Widths P W)
    (ri : Representable imax P) (hn : P.n + 1 < 2 ^ 64) (hW0 : 0 ≤ W) (hLi : imax < 2 ^ Li) (hL : W < 2 ^ L)
    (z : ∀ i, 1 ≤ i → i ≤ P.n → P.lo i ≤ 0 ∧ 0 ≤ P.hi i) (zu : ∀ p ∈ P.pairs, 0 ≤ p.u)
    (hcap : 6 * ((P.n : Int) + 1) * (bitCeil ((P.n + 1) * W.toNat) : Nat) ≤ imax)
    (hfuel : nearFuel P.n (P.pairs.length + P.n) imax W ≤ fuel) :
    ∃ c r, runC imax fuel P.n Mus Omegas = .ok (c, r) ∧
      Heavy c P.n (P.pairs.length + P.n) (phaseCount P.n W * (3 * P.n + 1)) (phaseCount P.n W)
        (restIters P.n P.pairs.length (phaseCount P.n W) Li L) (restEvals P.n P.pairs.length Li L) := by
  obtain ⟨r, r1, -⟩ := run_near rep wf cv wi wd ri hn hW0 z zu hcap hfuel
  obtain ⟨c, hc⟩ := (runC_er imax fuel P.n Mus Omegas).of_ok r1
  refine ⟨c, r, hc, run_time_of rep ri hLi (fun limits hl => ?_) hc⟩
  have hbits : Flow.bits imax < fuel := by unfold nearFuel at hfuel; omega
  have hR2 := capacity_range hW0 le_rfl hcap
  rcases front_spec rep wf cv wi wd ri hn hW0 hR2 hbits with ⟨h1, h2⟩ | ⟨limits', ps, h1, h2, h3, h4, h5, h6, h7⟩
  · rw [h1] at hl; cases hl
  · rw [h1] at hl
    cases hl
    have h8 := h7 z zu
    have hm0 := maxWidth_nonneg ps
    have hmW := maxWidth_le hW0 fun p hp => (h3 p hp).wd
    exact ⟨h4, fun e1 e2 e3 => limits_time (R := maxWidth ps) h2 (fun p hp => by
        have g := h3 p hp
        have g8 := h8 p hp
        have g9 := le_maxWidth hp
        exact { g with lo := by omega, hi := by omega }) hm0 hmW hcap
      (by
        have : Nat.log 2 (2 * maxWidth ps).toNat ≤ Nat.log 2 (2 * imax).toNat := Nat.log_mono_right (by omega)
        unfold Flow.bits at hbits ⊢
        omega)
      (fun U hU1 hUW hU => (minFuel_near hU1 hUW hm0 (maxWidth_le (by omega) hU) h4 (by omega)).trans hfuel) hL
      (fun U hU1 hUW hU => raises_near hUW (maxWidth_le (by omega) hU)) e1 e2 e3⟩

end ProblemSolver
end AHO
