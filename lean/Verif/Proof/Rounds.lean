import Verif.Proof.Solve
import Verif.Proof.FlowSteps
import Verif.Proof.Mono
/-!
# The rounds of `refine`
-/

namespace AHO
open Spec Flow

namespace Flow
variable {K : Type} [Field K] [LinearOrder K] [IsStrictOrderedRing K]
variable {imax : Int} {n : Nat} {M : K} {U R : Int} {limits : List (OmegaLimit K)} {ps : List (Pair K)}

/-- the rounds of one phase -/
structure PhaseRounds (imax : Int) (fuel : Nat) (n : Nat) (M : K) (limits : List (OmegaLimit K)) (ps : List (Pair K))
    (h : Int) (s₂ : Flow K) (J : Nat) : Prop where
  each : ∀ j, j ≤ J → ∃ s', iterN (refineStep imax fuel) j s₂ = .ok s' ∧ (s'.uq.empty = true ↔ j = J) ∧
    ∀ v, v ≤ n → s'.scaling.get v ≤ s₂.scaling.get v + h * j
  last : ∃ s' f, iterN (refineStep imax fuel) J s₂ = .ok s' ∧
    (∀ e, e < (inputNet n M limits ps).E → f (e ^^^ 1) = -f e) ∧
    (∀ v, v ≤ n → excess (inputNet n M limits ps) f v = 0) ∧
    (∀ e, e < (inputNet n M limits ps).E → (inputNet n M limits ps).L e
      (s'.scaling.get ((inputNet n M limits ps).src e) - s'.scaling.get ((inputNet n M limits ps).dst e) - h) ≤ f e) ∧
    ∀ v, v ≤ n → s₂.scaling.get v ≤ s'.scaling.get v

theorem NetInput.rounds (I : NetInput imax n M U R limits ps) {fuel : Nat}
    (hf : minFuel n limits.length U R (2 * ((n : Int) + 1) * R) ≤ fuel) :
    ∃ s B, Flow.mk' imax fuel n M U limits = .ok s ∧ B = firstB n (2 * ((n : Int) + 1) * R) (2 ^ (epsExp n U - 1)) ∧
      (∀ v, s.scaling.get v = 0) ∧ ∀ k, k < epsExp n U →
      ∃ s₁ s₂, iterN (Flow.phase imax fuel) k s = .ok s₁ ∧ pushAllAdmissibleEdge imax (initialization s₁) = .ok s₂ ∧
      s₁.epsilon / 2 = 2 ^ (epsExp n U - 1 - k) ∧ (∀ v, v ≤ n → s₂.scaling.get v = s₁.scaling.get v) ∧
      ∃ J, J < roundFuel n (2 * limits.length) (relabels n B k) ∧ J < fuel ∧
        PhaseRounds imax fuel n M limits ps (2 ^ (epsExp n U - 1 - k)) s₂ J := by
  obtain ⟨s, B, e1, e2, e3, e4, e5⟩ := NetInput.phases I hf
  refine ⟨s, B, e1, e3, e4, fun k hk' => ?_⟩
  obtain ⟨s₁, a1, ⟨C, hC, P⟩, a3, a4⟩ := e5 k hk'.le
  obtain ⟨St, hph⟩ := a4 hk'
  have h2 : (2 : Int) ^ (epsExp n U - k) = 2 * 2 ^ (epsExp n U - 1 - k) := by
    rw [show epsExp n U - k = (epsExp n U - 1 - k) + 1 by omega, pow_succ]; ring
  have hdiv : s₁.epsilon.tdiv 2 = 2 ^ (epsExp n U - 1 - k) := by
    rw [a3, h2, Int.mul_tdiv_cancel_left _ (by norm_num)]
  have hdiv' : s₁.epsilon / 2 = 2 ^ (epsExp n U - 1 - k) := by rw [a3, h2]; omega
  obtain ⟨ed, rm⟩ := room_id (net := inputNet n M limits ps)
    (C := C - (inputNet n M limits ps).E * (inputNet n M limits ps).M) I.M_nonneg (by linarith)
  obtain ⟨s₂, f, w, b1, b2, -⟩ := P.begin (inputNet_ok I) rm hdiv St
  have hfu := phaseFuel_ge (net := inputNet n M limits ps) (relabels n B k)
  obtain ⟨J, hJ, hr⟩ := RInv.rounds (inputNet_ok I) rm (hfu.1.trans hph) (hfu.2.trans hph) St _ s₂ f w _ _ b2 rfl
  have hJ' := lt_of_le_of_lt hJ (measR_lt _)
  refine ⟨s₁, s₂, a1, b1, hdiv', fun v hv => by rw [b2.sc v hv]; simp, J, hJ', hJ'.trans_le hph, ⟨fun j hj => ?_, ?_⟩⟩
  · obtain ⟨s', -, -, -, -, c1, -, c3, c4⟩ := hr j hj
    refine ⟨s', c1, ?_, c4⟩
    have : s'.uq.empty = true ↔ s'.uq.queue = [] := by simp [UQ.empty]
    rw [this]
    constructor
    · intro h
      by_contra hne
      exact c3.1 (by omega) h
    · rintro rfl
      by_contra h
      exact absurd (c3.2 h) (lt_irrefl _)
  · obtain ⟨s', f', w', τ', k', c1, c2, c3, c4⟩ := hr J le_rfl
    have hq : s'.uq.queue = [] := by
      by_contra h
      exact absurd (c3.2 h) (lt_irrefl _)
    refine ⟨s', f', c1, c2.A.I.anti, fun v hv => ?_, c2.A.I.opt, fun v hv => ?_⟩
    · have h1 := c2.A.I.cons v hv
      rw [c2.A.balanced (inputNet_ok I) hq hv] at h1
      linarith
    · rw [c2.sc v hv, b2.sc v hv]
      have : (0 : Int) ≤ 2 ^ (epsExp n U - 1 - k) * (k' v : Int) := by positivity
      simp only [Nat.cast_zero, mul_zero, add_zero]
      omega

theorem whileLoop_rounds {α : Type} {cond : α → Res Bool} {body : α → Res α} : ∀ {fuel : Nat} {a b : α},
    whileLoop cond body fuel a = .ok b → ∃ J, J < fuel ∧ iterN body J a = .ok b ∧ cond b = .ok false := by
  intro fuel
  induction fuel with
  | zero => intro a b h; cases h
  | succ fuel ih =>
    intro a b h
    unfold whileLoop at h
    cases hc : cond a with
    | error e => rw [hc] at h; cases h
    | ok c =>
      rw [hc, ok_bind] at h
      cases c with
      | false =>
        simp only [Bool.false_eq_true, if_false] at h
        cases h
        exact ⟨0, by omega, rfl, hc⟩
      | true =>
        simp only [if_true] at h
        cases hb : body a with
        | error e => rw [hb] at h; cases h
        | ok a' =>
          rw [hb, ok_bind] at h
          obtain ⟨J, h1, h2, h3⟩ := ih h
          exact ⟨J + 1, by omega, by rw [iterN_succ', hb, ok_bind, h2], h3⟩

theorem iterN_le {α : Type} {f g : α → Res α} (h : ∀ a, Le (f a) (g a)) : ∀ (k : Nat) (a : α), Le (iterN f k a) (iterN g k a) := by
  intro k
  induction k with
  | zero => intro a; exact .refl _
  | succ k ih =>
    intro a
    rw [iterN_succ', iterN_succ']
    exact (h a).bind fun b => ih b

theorem _root_.AHO.Le.ok {α : Type} {x y : Res α} {a : α} (h : Le x y) (hx : x = .ok a) : y = .ok a := by
  rcases h with h | h
  · rw [hx] at h; cases h
  · rw [← h, hx]

end Flow

end AHO
