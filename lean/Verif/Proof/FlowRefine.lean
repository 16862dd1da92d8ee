import Verif.Proof.FlowGap
import Verif.Proof.Loops
import Mathlib.Algebra.BigOperators.Ring.Finset
/-!
# `Flow::refine`
-/

namespace AHO.Flow
open AHO Spec LCT
set_option linter.unusedSectionVars false

variable {K : Type} [Field K] [LinearOrder K] [IsStrictOrderedRing K]
variable {R : Type} [Zero R] [One R] [Add R] [Sub R] [Neg R] [Mul R] [Div R] [IntCast R] [BEq R] [LT R] [LE R]
  [DecidableLT R] [DecidableLE R] {E : FEmb K R} {ed : Vec (OmegaLimit R)} {C : K}
variable {net : Net K} {h : Int} {s : Flow K} {f w : Nat → K} {τ : Nat → Nat}

/-- The situation between two calls of `choice_operator`. -/
structure AInv (E : FEmb K R) (C : K) (net : Net K) (h : Int) (s : Flow K) (f w : Nat → K) (τ : Nat → Nat) : Prop where
  I : FInv E C net h s f w τ
  uok : UQ.OK s.uq
  act : ∀ v, v ≤ net.n → 0 < s.imbalances.get v → s.fa.get v = none
  mem : ∀ v, v ≤ net.n → (v ∈ s.uq.queue ↔ 0 < s.imbalances.get v)

/-- one round of the loop of `refine` -/
structure Stepped (E : FEmb K R) (C : K) (net : Net K) (h : Int) (s0 s : Flow K) (f0 f w : Nat → K) (τ : Nat → Nat) (p : Nat) : Prop where
  A : AInv E C net h s f w τ
  ep : s.epsilon = s0.epsilon
  prog : (s.scaling = s0.scaling ∧ psi net s f < psi net s0 f0) ∨
    s.scaling = s0.scaling.set p (s0.scaling.get p + h) ∧ psi net s f ≤ psi net s0 f0 + 3 * (net.out p).length
  pn : 0 ≤ s.imbalances.get p
  imb : ∀ v, v ≤ net.n → v ≠ p → s0.imbalances.get v ≤ s.imbalances.get v

theorem Stepped.neg {s0 f0 p} (T : Stepped E C net h s0 s f0 f w τ p) {v} (hv : v ≤ net.n) (h0 : s.imbalances.get v < 0) :
    v ≠ p ∧ s0.imbalances.get v < 0 := by
  have hvp : v ≠ p := by rintro rfl; exact absurd h0 (not_lt.2 T.pn)
  exact ⟨hvp, (T.imb v hv hvp).trans_lt h0⟩

theorem AInv.refineStep (ok : net.OK) (rm : Room E ed net C) (hh : 0 ≤ h) {p xs imax fuel} (hfuel : net.n + 2 ≤ fuel)
    (hfuel2 : net.E + 1 ≤ fuel)
    (A : AInv E C net h s f w τ) (po : PotOK net imax s) (hq : s.uq.queue = p :: xs)
    (hep : s.epsilon.tdiv 2 = h) (hov : s.scaling.get p + h ≤ imax) :
    p ≤ net.n ∧ 0 < s.imbalances.get p ∧
    ∃ s' f' w' τ', refineStep imax fuel s = .ok s' ∧ Stepped E C net h s s' f f' w' τ' p ∧
      Flow.refineStep imax fuel (E.F ed s) = .ok (E.F ed s') := by
  have hp : p ≤ net.n := by
    have := A.uok.lt p (by rw [hq]; simp)
    rw [A.I.st.qsz] at this; omega
  have hact : 0 < s.imbalances.get p := (A.mem p hp).1 (by rw [hq]; simp)
  refine ⟨hp, hact, ?_⟩
  have S : SInv E C net h s f w τ p := ⟨A.I, A.uok, ⟨xs, hq⟩, hact.le, fun v hv _ => A.act v hv, fun v hv _ => A.mem v hv⟩
  have hlen : (net.out p).length ≤ net.E := by
    have := List.length_filter_le (fun e => net.src e = p) (List.range net.E)
    simpa [Net.out] using this
  obtain ⟨s1, f1, w1, τ1, c1, c2, cE⟩ := SInv.choiceLoop ok rm hh hfuel hp fuel s S po (A.act p hp hact)
    (by omega) (by omega) hep hov
  unfold Flow.refineStep Flow.choiceOperator
  simp only [FEmb.F_uq]
  rw [UQ.front_spec hq, ok_bind, ok_bind, c1, ok_bind, cE, ok_bind]
  obtain ⟨ys, hys⟩ := c2.S.front
  simp only [FEmb.F_uq, FEmb.F_imbalances]
  rw [UQ.front_spec hys, ok_bind, ok_bind, Vec.rd_ok (by rw [c2.S.I.st.isz]; omega), ok_bind,
    Vec.rd_ok (v := s1.imbalances.map E.e) (by rw [Vec.map_size, c2.S.I.st.isz]; omega), ok_bind, Vec.map_get]
  have hbeq : (E.e (s1.imbalances.get p) == (0 : R)) = (s1.imbalances.get p == 0) := by
    exact E.beq 0 _ rm.I0 (by rw [zero_add]; exact c2.S.I.imbI ok rm hp)
  rw [hbeq]
  by_cases h0 : s1.imbalances.get p = 0
  · rw [if_pos (by simpa using h0), if_pos (by simpa using h0)]
    obtain ⟨q', q1, q2, q3, q4⟩ := UQ.pop_spec c2.S.uok hys
    rw [q1]
    refine ⟨{ s1 with uq := q' }, f1, w1, τ1, rfl, ⟨⟨?_, q2, ?_, ?_⟩, c2.ep, c2.prog, c2.S.pn, c2.imb⟩, rfl⟩
    · exact { c2.S.I with st := { c2.S.I.st with qsz := by show q'.isIn.size = _; rw [q3, c2.S.I.st.qsz] } }
    · intro v hv hv0
      change 0 < s1.imbalances.get v at hv0
      by_cases hvp : v = p
      · subst hvp; rw [h0] at hv0; exact absurd hv0 (lt_irrefl _)
      · exact c2.S.act v hv hvp hv0
    · intro v hv
      show v ∈ q'.queue ↔ 0 < s1.imbalances.get v
      by_cases hvp : v = p
      · subst hvp
        rw [h0, q4]
        have := c2.S.uok.nodup
        rw [hys, List.nodup_cons] at this
        simp [this.1]
      · rw [← c2.S.mem v hv hvp, q4, hys]; simp [hvp]
  · rw [if_neg (by simpa using h0), if_neg (by simpa using h0)]
    have hpos : 0 < s1.imbalances.get p := lt_of_le_of_ne c2.S.pn (Ne.symm h0)
    refine ⟨s1, f1, w1, τ1, rfl, ⟨⟨c2.S.I, c2.S.uok, ?_, ?_⟩, c2.ep, c2.prog, c2.S.pn, c2.imb⟩, rfl⟩
    · intro v hv hv0
      by_cases hvp : v = p
      · subst hvp; exact c2.actp hv0
      · exact c2.S.act v hv hvp hv0
    · intro v hv
      by_cases hvp : v = p
      · subst hvp; rw [hys]; simp [hpos]
      · exact c2.S.mem v hv hvp

/-- The circulation `f0` and the potentials `p0` from which a phase starts, and the bounds on which it relies:
no potential is increased more than `B` times. -/
structure Start (net : Net K) (imax h c : Int) (f0 : Nat → K) (p0 : Nat → Int) (B : Nat) : Prop where
  hpos : 0 < h
  cpos : 0 ≤ c
  N_le : net.N ≤ imax
  anti : ∀ e, e < net.E → f0 (e ^^^ 1) = -f0 e
  circ : ∀ v, v ≤ net.n → excess net f0 v = 0
  opt : ∀ e, e < net.E → net.L e (p0 (net.src e) - p0 (net.dst e) - c) ≤ f0 e
  nonneg : ∀ v, v ≤ net.n → 0 ≤ p0 v
  fit : ∀ v, v ≤ net.n → p0 v + (net.n * (c + h) + h) ≤ imax
  rounds : net.n * (c + h) + h ≤ h * B

/-- invariant of the loop of `refine`; `k` counts the relabellings of the nodes -/
structure RInv (E : FEmb K R) (C : K) (net : Net K) (h c : Int) (p0 : Nat → Int) (B : Nat) (s : Flow K) (f w : Nat → K) (τ : Nat → Nat)
    (k : Nat → Nat) : Prop where
  A : AInv E C net h s f w τ
  ep : s.epsilon.tdiv 2 = h
  sc : ∀ v, v ≤ net.n → s.scaling.get v = p0 v + h * k v
  kB : ∀ v, v ≤ net.n → k v ≤ B
  kH : ∀ v, v ≤ net.n → h * k v ≤ net.n * (c + h) + h
  neg : ∀ v, v ≤ net.n → s.imbalances.get v < 0 → k v = 0

/-- a relabelling of `v` is paid for by `3 * |out v| + 1` other operations -/
noncomputable def measR (net : Net K) (B : Nat) (s : Flow K) (f : Nat → K) (k : Nat → Nat) : Nat :=
  ∑ v ∈ Finset.range (net.n + 1), (B - k v) * (3 * (net.out v).length + 1) + psi net s f

theorem psi_le : psi net s f ≤ 2 * net.E + (net.n + 1) := by
  unfold psi
  have h1 : (LS net s f).card ≤ net.E := by
    have : LS net s f ⊆ Finset.range net.E := by
      intro e he
      simp only [LS, Finset.mem_filter] at he
      exact he.1
    have := Finset.card_le_card this
    simpa using this
  have h2 := rts_le (net := net) (s := s)
  omega

theorem sum_out_le (net : Net K) : ∑ v ∈ Finset.range (net.n + 1), (net.out v).length ≤ net.E := by
  have h1 : ∀ v, (net.out v).length = ((Finset.range net.E).filter fun e => net.src e = v).card := fun v => rfl
  simp only [h1]
  rw [← Finset.card_biUnion]
  · refine (Finset.card_le_card (t := Finset.range net.E) fun e he => ?_).trans (by simp)
    simp only [Finset.mem_biUnion, Finset.mem_filter] at he
    obtain ⟨-, -, he, -⟩ := he
    exact he
  · intro u _ v _ huv
    rw [Function.onFun, Finset.disjoint_left]
    intro e h1 h2
    exact huv ((Finset.mem_filter.1 h1).2.symm.trans (Finset.mem_filter.1 h2).2)

/-- a number which exceeds the number of rounds in which no potential is increased more than `B` times -/
def roundFuel (n m B : Nat) : Nat := B * (3 * m + (n + 1)) + 2 * m + n + 2

theorem roundFuel_mono {n m m' B B' : Nat} (hm : m ≤ m') (hB : B ≤ B') : roundFuel n m B ≤ roundFuel n m' B' := by
  unfold roundFuel
  have := Nat.mul_le_mul hB (show 3 * m + (n + 1) ≤ 3 * m' + (n + 1) by omega)
  omega

theorem measR_lt (k : Nat → Nat) : measR net B s f k < roundFuel net.n net.E B := by
  have h1 : ∑ v ∈ Finset.range (net.n + 1), (B - k v) * (3 * (net.out v).length + 1) ≤ B * (3 * net.E + (net.n + 1)) := by
    calc _ ≤ ∑ v ∈ Finset.range (net.n + 1), B * (3 * (net.out v).length + 1) :=
          Finset.sum_le_sum fun v _ => Nat.mul_le_mul_right _ (Nat.sub_le _ _)
      _ = B * (3 * (∑ v ∈ Finset.range (net.n + 1), (net.out v).length) + (net.n + 1)) := by
          rw [← Finset.mul_sum, Finset.sum_add_distrib, ← Finset.mul_sum]; simp
      _ ≤ _ := Nat.mul_le_mul_left _ (by have := sum_out_le net; omega)
  have h2 := psi_le (net := net) (s := s) (f := f)
  unfold measR roundFuel
  omega

theorem RInv.po {imax c f0 p0 B k} (St : Start net imax h c f0 p0 B) (Rv : RInv E C net h c p0 B s f w τ k) :
    PotOK net imax s := by
  have hpos := St.hpos
  refine ⟨St.N_le, fun v hv => ?_, fun v hv => ?_⟩
  · rw [Rv.sc v hv]
    have := St.nonneg v hv
    have : 0 ≤ h * k v := by positivity
    omega
  · rw [Rv.sc v hv]
    have := St.fit v hv
    have := Rv.kH v hv
    omega

theorem RInv.step (ok : net.OK) (rm : Room E ed net C) {imax c f0 p0 B k p xs fuel} (hfuel : net.n + 2 ≤ fuel)
    (hfuel2 : net.E + 1 ≤ fuel) (St : Start net imax h c f0 p0 B) (Rv : RInv E C net h c p0 B s f w τ k)
    (hq : s.uq.queue = p :: xs) :
    ∃ s' f' w' τ' k', refineStep imax fuel s = .ok s' ∧ RInv E C net h c p0 B s' f' w' τ' k' ∧
      measR net B s' f' k' < measR net B s f k ∧
      (s'.scaling = s.scaling ∨ s'.scaling = s.scaling.set p (s.scaling.get p + h)) ∧
      Flow.refineStep imax fuel (E.F ed s) = .ok (E.F ed s') ∧
      0 ≤ s'.imbalances.get p ∧ ∀ v, v ≤ net.n → v ≠ p → s.imbalances.get v ≤ s'.imbalances.get v := by
  have hpos := St.hpos
  have hcp := St.cpos
  have hp : p ≤ net.n := by
    have := Rv.A.uok.lt p (by rw [hq]; simp)
    rw [Rv.A.I.st.qsz] at this; omega
  have hact : 0 < s.imbalances.get p := (Rv.A.mem p hp).1 (by rw [hq]; simp)
  -- the gap argument
  have hgap := gap ok (f := f) (f0 := f0) (pot := s.scaling.get) (pot0 := p0) (c := c) (h := h) (by omega)
    Rv.A.I.anti St.anti St.circ St.opt Rv.A.I.opt
    (by
      intro v hv h0
      rw [Rv.sc v hv, Rv.neg v hv (by rw [Rv.A.I.cons v hv]; linarith)]; simp)
    hp (by have := Rv.A.I.cons p hp; linarith)
  have hkp : k p + 1 ≤ B := by
    rw [Rv.sc p hp] at hgap
    have := St.rounds
    have h1 : h * ((k p : Int) + 1) ≤ h * B := by rw [Int.mul_add]; omega
    have := Int.le_of_mul_le_mul_left h1 hpos
    omega
  have hov : s.scaling.get p + h ≤ imax := by
    rw [Rv.sc p hp]
    have := St.fit p hp
    rw [Rv.sc p hp] at hgap
    omega
  obtain ⟨-, -, s', f', w', τ', e1, e2, eE⟩ := Rv.A.refineStep ok rm hpos.le hfuel hfuel2 (Rv.po St) hq Rv.ep hov
  rcases e2.prog with ⟨g1, g2⟩ | ⟨g1, g2⟩
  · refine ⟨s', f', w', τ', k, e1, ⟨e2.A, by rw [e2.ep]; exact Rv.ep, by rw [g1]; exact Rv.sc, Rv.kB, Rv.kH,
      fun v hv h0 => Rv.neg v hv ((e2.neg hv h0).2)⟩, ?_, .inl g1, eE, e2.pn, e2.imb⟩
    unfold measR; omega
  · refine ⟨s', f', w', τ', Function.update k p (k p + 1), e1, ⟨e2.A, by rw [e2.ep]; exact Rv.ep, ?_, ?_, ?_, ?_⟩, ?_, .inr g1, eE, e2.pn, e2.imb⟩
    · intro v hv
      rw [g1, Vec.set_get]
      by_cases hvp : v = p
      · subst hvp
        rw [if_pos rfl, Function.update_self, Rv.sc v hv]; push_cast; ring
      · rw [if_neg hvp, Function.update_of_ne hvp]; exact Rv.sc v hv
    · intro v hv
      by_cases hvp : v = p
      · subst hvp; rw [Function.update_self]; exact hkp
      · rw [Function.update_of_ne hvp]; exact Rv.kB v hv
    · intro v hv
      by_cases hvp : v = p
      · subst hvp
        rw [Rv.sc v hv] at hgap
        rw [Function.update_self]; push_cast; rw [Int.mul_add]; omega
      · rw [Function.update_of_ne hvp]; exact Rv.kH v hv
    · intro v hv h0
      obtain ⟨hvp, h1⟩ := e2.neg hv h0
      rw [Function.update_of_ne hvp]; exact Rv.neg v hv h1
    · have h1 : ∑ v ∈ Finset.range (net.n + 1), (B - Function.update k p (k p + 1) v) * (3 * (net.out v).length + 1) +
            (3 * (net.out p).length + 1) =
          ∑ v ∈ Finset.range (net.n + 1), (B - k v) * (3 * (net.out v).length + 1) := by
        have hm : p ∈ Finset.range (net.n + 1) := by simp; omega
        rw [← Finset.add_sum_erase _ _ hm, ← Finset.add_sum_erase _ _ hm, Function.update_self,
          Finset.sum_congr rfl (g := fun v => (B - k v) * (3 * (net.out v).length + 1)) fun v hv => by
            rw [Function.update_of_ne (Finset.ne_of_mem_erase hv)]]
        have : B - k p = B - (k p + 1) + 1 := by omega
        rw [this, Nat.add_mul, Nat.one_mul]
        omega
      unfold measR
      omega

theorem RInv.loop (ok : net.OK) (rm : Room E ed net C) {imax c f0 p0 B k fuel} (hfuel : net.n + 2 ≤ fuel)
    (hfuel2 : net.E + 1 ≤ fuel) (hfuel3 : roundFuel net.n net.E B ≤ fuel)
    (St : Start net imax h c f0 p0 B) (Rv : RInv E C net h c p0 B s f w τ k) :
    ∃ s' f' w' τ' k', whileLoop (fun s : Flow K => .ok (!s.uq.empty)) (refineStep imax fuel) fuel s = .ok s' ∧
      RInv E C net h c p0 B s' f' w' τ' k' ∧ s'.uq.queue = [] ∧
      whileLoop (fun s : Flow R => .ok (!s.uq.empty)) (Flow.refineStep imax fuel) fuel (E.F ed s) = .ok (E.F ed s') := by
  obtain ⟨s', m', e1, ⟨f', w', τ', k', e2, -⟩, e3, eE⟩ := whileLoop_ok2
    (cond := fun s : Flow K => .ok (!s.uq.empty)) (body := Flow.refineStep imax fuel)
    (φ := E.F ed) (condR := fun s : Flow R => .ok (!s.uq.empty)) (bodyR := Flow.refineStep imax fuel)
    (Inv := fun s m => ∃ f w τ k, RInv E C net h c p0 B s f w τ k ∧ m = measR net B s f k) (fun _ => rfl)
    (by
      rintro s m ⟨f, w, τ, k, Rv, rfl⟩
      cases hq : s.uq.queue with
      | nil => left; simp [UQ.empty, hq]
      | cons p xs =>
        right
        refine ⟨by simp [UQ.empty, hq], ?_⟩
        obtain ⟨s', f', w', τ', k', e1, e2, e3, -, eE, -⟩ := Rv.step ok rm hfuel hfuel2 St hq
        exact ⟨s', _, e1, ⟨f', w', τ', k', e2, rfl⟩, e3, eE⟩)
    fuel s _ ⟨f, w, τ, k, Rv, rfl⟩ ((measR_lt k).trans_le hfuel3)
  refine ⟨s', f', w', τ', k', e1, e2, ?_, eE⟩
  cases hq : s'.uq.queue with
  | nil => rfl
  | cons p xs => simp [UQ.empty, hq] at e3

/-- No node has excess, hence none has a deficit. -/
theorem AInv.balanced (ok : net.OK) (A : AInv E C net h s f w τ) (hq : s.uq.queue = []) {v} (hv : v ≤ net.n) :
    s.imbalances.get v = 0 := by
  have h1 : ∀ u ∈ Finset.range (net.n + 1), 0 ≤ excess net f u := by
    intro u hu
    have hu : u ≤ net.n := by simp at hu; omega
    have h2 := A.mem u hu
    rw [hq] at h2
    have h3 : ¬ 0 < s.imbalances.get u := fun h => by simpa using h2.2 h
    rw [A.I.cons u hu] at h3
    linarith
  have h2 := (Finset.sum_eq_zero_iff_of_nonneg h1).1 (sum_excess_all ok A.I.anti) v (by simp; omega)
  rw [A.I.cons v hv, h2, neg_zero]

theorem FInv.cutAll (ok : net.OK) (rm : Room E ed net C) (I : FInv E C net h s f w τ) {imax fuel} (po : PotOK net imax s)
    (hfuel : net.n + 2 ≤ fuel) :
    ∃ s', forRange (cutIfLinked imax fuel) 0 (net.n + 1) s = .ok s' ∧ FInv E C net h s' f w τ ∧ Same s s' ∧
      s'.imbalances = s.imbalances ∧ s'.uq = s.uq ∧ (∀ v, v ≤ net.n → s'.fa.get v = none) ∧
      forRange (cutIfLinked imax fuel) 0 (net.n + 1) (E.F ed s) = .ok (E.F ed s') := by
  obtain ⟨s', e1, e2, eE⟩ := forRange_ok2 (body := cutIfLinked imax fuel) (hi := net.n + 1)
    (φ := E.F ed) (bodyR := cutIfLinked imax fuel)
    (Inv := fun s' i => FInv E C net h s' f w τ ∧ Same s s' ∧ s'.imbalances = s.imbalances ∧ s'.uq = s.uq ∧
      ∀ v, v < i → s'.fa.get v = none)
    (by
      rintro s1 i ⟨I1, h2, h3, h4, h5⟩ hi
      unfold cutIfLinked
      simp only [FEmb.F_fa]
      rw [Vec.rd_ok (by rw [I1.st.fsz]; omega), ok_bind, ok_bind]
      by_cases hf : s1.fa.get i = none
      · rw [if_neg (by simp [hf]), if_neg (by simp [hf])]
        refine ⟨s1, rfl, ⟨I1, h2, h3, h4, fun v hv => ?_⟩, rfl⟩
        by_cases hvi : v = i
        · rw [hvi]; exact hf
        · exact h5 v (by omega)
      · rw [if_pos (by simpa using hf), if_pos (by simpa using hf)]
        obtain ⟨j, hj⟩ := Option.ne_none_iff_exists'.1 hf
        obtain ⟨s2, c1, c2, c3, c4, c5, c6, c7, c8, cE⟩ := I1.cut ok rm (h2.po po) hfuel (show i ≤ net.n by omega) hj
        refine ⟨s2, c1, ⟨c2, h2.trans ⟨c4, c7, c8⟩, c5.trans h3, c6.trans h4, fun v hv => ?_⟩, cE⟩
        rw [c3, Vec.set_get]
        split
        · rfl
        · exact h5 v (by omega))
    (net.n + 1) 0 s ⟨I, .refl, rfl, rfl, by simp⟩ (by omega)
  exact ⟨s', e1, e2.1, e2.2.1, e2.2.2.1, e2.2.2.2.1, fun v hv => e2.2.2.2.2 v (by omega), eE⟩

/-- The state between two phases: `flows` is a circulation, and `c`-optimal. -/
structure PInv (E : FEmb K R) (C : K) (net : Net K) (c : Int) (s : Flow K) : Prop where
  st : Static net s
  rep : ∃ w, RepE E.toEmb s.nodes s.fa.get w ∧ ∀ v, v ≤ net.n → w v ∈ E.U ∧ C ≤ w v ∧ w v ≤ 2 * net.M
  root : ∀ v, v ≤ net.n → s.fa.get v = none
  anti : ∀ e, e < net.E → s.flows.get (e ^^^ 1) = -s.flows.get e
  bd : ∀ e, e < net.E → s.flows.get e ≤ net.M
  circ : ∀ v, v ≤ net.n → excess net s.flows.get v = 0
  bal : ∀ v, v ≤ net.n → s.imbalances.get v = 0
  opt : ∀ e, e < net.E → net.L e (dd net s e - c) ≤ s.flows.get e
  uok : UQ.OK s.uq
  qe : s.uq.queue = []
  flU : ∀ e, e < net.E → s.flows.get e ∈ E.U

theorem excess_congr {f g : Nat → K} (hfg : ∀ e, e < net.E → f e = g e) (v : Nat) :
    excess net f v = excess net g v := by
  unfold excess
  exact Finset.sum_congr rfl fun e he => hfg e (by simpa using (Finset.mem_filter.1 he).1)

theorem RInv.refine (ok : net.OK) (rm : Room E ed net C) {imax c f0 p0 B k fuel} (hfuel : net.n + 2 ≤ fuel)
    (hfuel2 : net.E + 1 ≤ fuel) (hfuel3 : roundFuel net.n net.E B ≤ fuel)
    (St : Start net imax h c f0 p0 B) (Rv : RInv E C net h c p0 B s f w τ k) :
    ∃ (s' : Flow K) (k' : Nat → Nat), refine imax fuel s = .ok s' ∧ PInv E C net h s' ∧ s'.epsilon.tdiv 2 = h ∧
      (∀ v, v ≤ net.n → s'.scaling.get v = p0 v + h * k' v) ∧ (∀ v, v ≤ net.n → k' v ≤ B ∧ h * k' v ≤ net.n * (c + h) + h) ∧
      Flow.refine imax fuel (E.F ed s) = .ok (E.F ed s') := by
  obtain ⟨s1, f1, w1, τ1, k1, e1, e2, e3, eE⟩ := Rv.loop ok rm hfuel hfuel2 hfuel3 St
  obtain ⟨s2, d1, d2, d3, d4, d5, d6, dE⟩ := e2.A.I.cutAll ok rm (e2.po St) hfuel
  have hfl : ∀ e, e < net.E → s2.flows.get e = f1 e := by
    intro e he
    have hT : ∀ e, ¬ Tree net s2 e := by
      rintro e ⟨t1, t2, -⟩; exact t2 (d6 _ (ok.src_le e t1))
    exact d2.non e he (hT e) (hT _)
  have hbal : ∀ v, v ≤ net.n → s2.imbalances.get v = 0 := by
    intro v hv; rw [d4]; exact e2.A.balanced ok e3 hv
  refine ⟨s2, k1, ?_, ⟨d2.st, ⟨w1, d2.rep, fun v hv => ⟨d2.ext.wU v hv, by have := d2.ext.wC v hv; rwa [hbal v hv, add_zero] at this,
      d2.ext.wM v hv⟩⟩, d6, d2.flA, d2.flB, ?_, hbal, ?_, by rw [d5]; exact e2.A.uok,
    by rw [d5]; exact e3, d2.ext.flU⟩, by rw [d3.ep]; exact e2.ep, by rw [d3.sc]; exact e2.sc,
    fun v hv => ⟨e2.kB v hv, e2.kH v hv⟩, ?_⟩
  · unfold Flow.refine
    rw [e1, ok_bind, e2.A.I.st.n, d1]
  · intro v hv
    rw [excess_congr hfl]
    have := d2.cons v hv
    rw [hbal v hv] at this
    linarith
  · intro e he
    rw [hfl e he]; exact d2.opt e he
  · unfold Flow.refine
    rw [eE, ok_bind, FEmb.F_n, e2.A.I.st.n, dE]

end AHO.Flow
