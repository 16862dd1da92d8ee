import Verif.Proof.Oracle
/-!
# `bf_solve` on costs which are only nearly convex

`pre_processing` finds by binary search a place where the cost stops to decrease, whatever the cost is. If the cost is within `δ` of a convex
one, this place is good enough.
-/

namespace AHO
open Spec

variable {K : Type} [Field K] [LinearOrder K] [IsStrictOrderedRing K]

/-- The cost `g` decreases before `t` and does not decrease after `t`. -/
structure Turn (g : Int → K) (l u t : Int) : Prop where
  lo : l ≤ t
  hi : t ≤ u
  left : t = l ∨ g t < g (t - 1)
  right : t = u ∨ g t ≤ g (t + 1)

omit [IsStrictOrderedRing K] [Field K] in
theorem preProcessing_turn {imax : Int} {e : OmegaLimit K} {g : Int → K} {fuel k : Nat} (hk : k < fuel)
    (hf : Fits imax k e.l e.u) (hg : e.fn.Is g e.l e.u) :
    ∃ t, Turn g e.l e.u t ∧ e.preProcessing imax fuel = .ok { e with fn := fun x => e.fn (max t x) } := by
  have h1 := hf.lo
  have h2 := hf.hi
  obtain ⟨t, e1, e2, e3, e4, e5⟩ := partitionPoint_spec (imax := imax) (pred := descends imax e.fn)
    (P := fun x => decide (g (x + 1) < g x)) hk hf.le hf.bits hf.lo hf.hi hf.width
    (by
      intro x hx hx'
      unfold descends
      rw [hg x hx hx'.le, ok_bind, ck_ok (by omega) (by omega), ok_bind, hg (x + 1) (by omega) (by omega), ok_bind])
  refine ⟨t, ⟨e2, e3, e4.imp_right fun h => by simpa using h, e5.imp_right fun h => by simpa using h⟩, ?_⟩
  unfold OmegaLimit.preProcessing
  rw [e1, ok_bind]

theorem climb {g : Int → K} {c : K} {a b : Int} (h : ∀ y, a ≤ y → y < b → g (y + 1) - g y ≤ c) (hab : a ≤ b) :
    g b - g a ≤ c * ((b - a : Int) : K) := by
  have := up_le (g := fun y => c * (y : K) - g y) (p := a) (u := b) (fun y h1 h2 => by
    have := h y h1 h2
    push_cast
    linarith) le_rfl hab le_rfl
  push_cast
  linarith

theorem climb_le {g : Int → K} {c : K} {a b : Int} (h : ∀ y, a ≤ y → y < b → -c ≤ g (y + 1) - g y) (hab : a ≤ b) :
    g a - g b ≤ c * ((b - a : Int) : K) := by
  have := climb (g := fun y => -g y) (c := c) (a := a) (b := b) (fun y h1 h2 => by have := h y h1 h2; linarith) hab
  linarith

/-- At the turning point of a cost `h` near the convex cost `g`, also `g` is nearly minimal. -/
theorem Turn.near {g h : Int → K} {l u t : Int} {δ : K} (ht : Turn h l u t) (hc : Convex g l u)
    (hd : ∀ x, l ≤ x → x ≤ u → |h x - g x| ≤ δ) {x ω : Int} (hxω : x ≤ ω) (hl : l ≤ ω) (hu : ω ≤ u) :
    h (max t x) ≤ g ω + δ + 2 * δ * ((u - l : Int) : K) := by
  have t1 := ht.lo
  have t2 := ht.hi
  have hδ : 0 ≤ δ := (abs_nonneg _).trans (hd ω hl hu)
  have hs := abs_le.1 (hd (max t x) (by omega) (by omega))
  have hmul : ∀ {a b : Int}, l ≤ a → b ≤ u → 2 * δ * ((b - a : Int) : K) ≤ 2 * δ * ((u - l : Int) : K) := fun ha hb =>
    mul_le_mul_of_nonneg_left (by exact_mod_cast (by omega)) (by linarith)
  rcases le_total ω t with c | c
  · rw [max_eq_left (by omega)] at hs ⊢
    rcases eq_or_lt_of_le (hl.trans c) with c' | c'
    · obtain rfl : ω = t := by omega
      have := hmul (le_refl l) (show l ≤ u by omega)
      simp only [sub_self, Int.cast_zero, mul_zero] at this
      linarith [hs.2]
    · have h1 : h t < h (t - 1) := ht.left.resolve_left (by omega)
      have h2 := abs_le.1 (hd (t - 1) (by omega) (by omega))
      have := climb (g := g) (c := 2 * δ) (a := ω) (b := t) (fun y y1 y2 => by
        have := convex_slope hc (x := y) (y := t - 1) (by omega) (by omega) (by omega)
        rw [sub_add_cancel] at this
        linarith [hs.1, h2.2]) c
      have := hmul hl (show t ≤ u from t2)
      linarith [hs.2]
  · rcases eq_or_lt_of_le (c.trans hu) with c' | c'
    · obtain rfl : ω = t := by omega
      rw [max_eq_left hxω] at hs ⊢
      have := hmul (le_refl l) (show l ≤ u by omega)
      simp only [sub_self, Int.cast_zero, mul_zero] at this
      linarith [hs.2]
    · have h0 := abs_le.1 (hd t t1 t2)
      have h1 : h t ≤ h (t + 1) := ht.right.resolve_left (by omega)
      have h2 := abs_le.1 (hd (t + 1) (by omega) (by omega))
      have := climb_le (g := g) (c := 2 * δ) (a := max t x) (b := ω) (fun y y1 y2 => by
        have := convex_slope hc (x := t) (y := y) (by omega) (by omega) (by omega)
        linarith [h0.1, h2.2]) (by omega)
      have := hmul (show l ≤ max t x by omega) hu
      linarith [hs.2]

namespace Oracle
variable {imax R : Int} {P : Problem K} {fuel : Nat}

/-- the pair after `pre_processing` -/
def Turned (p q : Pair K) : Prop := q.i = p.i ∧ q.j = p.j ∧ q.u = p.u ∧ ∃ t, Turn p.B p.l p.u t ∧ ∀ x, q.B x = p.B (max t x)

omit [Field K] [IsStrictOrderedRing K] in
theorem preAll_turn (hf : Flow.bits imax < fuel) : ∀ (Os : List (OmegaLimit K)) (ps : List (Pair K)),
    List.Forall₂ OmegaLimit.Is Os ps →
    (∀ p ∈ ps, p.l ≤ p.u ∧ -imax - 1 ≤ p.l ∧ p.u ≤ imax ∧ p.u - p.l ≤ imax) →
    ∃ Os' qs, preAll imax fuel Os = .ok Os' ∧ List.Forall₂ Turned ps qs ∧
      List.Forall₂ (fun (o : OmegaLimit K) (q : Pair K) => o.i = q.i ∧ o.j = q.j ∧ o.u = q.u ∧
        ∀ x, x ≤ q.u → o.fn x = .ok (q.B x)) Os' qs := by
  intro Os
  induction Os with
  | nil => intro ps h _; cases h; exact ⟨[], [], rfl, .nil, .nil⟩
  | cons e Os ih =>
    intro ps h g
    cases h with
    | cons he hrest =>
      rename_i p ps
      obtain ⟨g1, g2, g3, g4⟩ := g p (by simp)
      obtain ⟨Os', qs, i1, i2, i3⟩ := ih ps hrest fun q hq => g q (List.mem_cons_of_mem _ hq)
      obtain ⟨t, t1, t2⟩ := preProcessing_turn (imax := imax) (e := e) (g := p.B) hf
        (by rw [he.l, he.u]; exact ⟨g1, g2, g3, g4, Flow.bits_spec (by omega)⟩) (by rw [he.l, he.u]; exact he.fn)
      rw [he.l, he.u] at t1
      refine ⟨{ e with fn := fun x => e.fn (max t x) } :: Os', ⟨p.i, p.j, p.l, p.u, fun x => p.B (max t x)⟩ :: qs, ?_,
        .cons ⟨rfl, rfl, rfl, t, t1, fun _ => rfl⟩ i2, .cons ⟨he.i, he.j, he.u, fun x hx => ?_⟩ i3⟩
      · unfold preAll
        rw [t2, ok_bind, i1, ok_bind]
      · have := t1.lo
        have := t1.hi
        have hx : x ≤ p.u := hx
        exact he.fn _ (by omega) (by omega)

/-- `bf_solve` returns the least sum which the depth-first search reaches. Nothing is assumed about the costs. -/
theorem bfSolve_turn {Mus : List (MuLimit K)} {Omegas : List (OmegaLimit K)} (rep : Represents P Mus Omegas) (wf : WellFormed P)
    (rp : Representable imax P) (wi : Within P R) (hR0 : 0 ≤ R) (hR : 2 * R + 1 ≤ imax)
    (hf : max (Flow.bits imax) (2 * R + 1).toNat < fuel) :
    ∃ r qs, bfSolve imax fuel P.n Mus Omegas = .ok r ∧ List.Forall₂ Turned P.pairs qs ∧ Outcome (reach P qs 0 (fun _ => 0) 0) r := by
  obtain ⟨Os', qs, e1, e2, e3⟩ := preAll_turn (imax := imax) (fuel := fuel) (by omega) Omegas P.pairs rep.omegas (by
    intro p hp
    have := rp.lo p hp
    have := rp.width p hp
    have := wi.u p hp
    exact ⟨wf.le p hp, by omega, by omega, by omega⟩)
  have g : ∀ q ∈ qs, 1 ≤ q.i ∧ q.i ≤ P.n ∧ 1 ≤ q.j ∧ q.j ≤ P.n := by
    intro q hq
    obtain ⟨k, hk, rfl⟩ := List.getElem_of_mem hq
    have hlen := e2.length_eq
    have r := (List.forall₂_iff_get.1 e2).2 k (by omega) hk
    have hp := List.getElem_mem (show k < P.pairs.length by omega)
    simp only [List.get_eq_getElem] at r
    rw [r.1, r.2.1]
    exact ⟨wf.i_pos _ hp, wf.i_le _ hp, wf.j_pos _ hp, wf.j_le _ hp⟩
  obtain ⟨v', r', f1, -, -, f4⟩ := dfs_spec (imax := imax) (R := R) (fuel := fuel) rep.len rep.mus wi.lo wi.hi hR0 hR e3 g (by omega)
    P.n 0 0 (Vec.replicate (P.n + 1) 0) none ∅ (by omega) rfl (by intro i _ _; omega) (.inl ⟨rfl, rfl⟩)
  refine ⟨r', qs, ?_, e2, ?_⟩
  · unfold bfSolve
    rw [e1, ok_bind, f1, ok_bind]
  · rw [Set.empty_union] at f4
    exact f4

/-- The sums of two lists whose terms differ by at most `c`. -/
theorem sum_le_add {ι : Type} {s : Finset ι} {a b : ι → K} {c : K} (h : ∀ i ∈ s, a i ≤ b i + c) : ∑ i ∈ s, a i ≤ ∑ i ∈ s, b i + s.card * c := by
  have := Finset.sum_le_sum h
  rw [Finset.sum_add_distrib, Finset.sum_const, nsmul_eq_mul] at this
  exact this

/-- How far the result of `bf_solve` on costs near convex ones can be from the optimum of the convex ones. -/
theorem bfSolve_near {P P' : Problem K} {δ : K} {W : Int} (hn : P.Near P' δ) (hδ : 0 ≤ δ) (wf : WellFormed P) (cv : ∀ p ∈ P.pairs, Convex p.B p.l p.u)
    (hW : ∀ p ∈ P.pairs, p.u - p.l ≤ W) {qs : List (Pair K)} (hq : List.Forall₂ Turned P'.pairs qs) {r : Option K}
    (hr : Outcome (reach P' qs 0 (fun _ => 0) 0) r) :
    (r = none ↔ ¬ Solvable P) ∧ ∀ v o, r = some v → IsOptimum P o →
      |v - o| ≤ ((P.n + P.pairs.length : Nat) : K) * δ + P.pairs.length * (2 * δ * W) := by
  have hl1 := hn.pairs.length_eq
  have hl2 := hq.length_eq
  have hpair : ∀ (k : Nat) (hk : k < P.pairs.length) (hk' : k < qs.length), ∃ (h : Int → K) (t : Int), qs[k].i = P.pairs[k].i ∧
      qs[k].j = P.pairs[k].j ∧ qs[k].u = P.pairs[k].u ∧ Turn h P.pairs[k].l P.pairs[k].u t ∧ (∀ x, qs[k].B x = h (max t x)) ∧
      ∀ x, P.pairs[k].l ≤ x → x ≤ P.pairs[k].u → |h x - P.pairs[k].B x| ≤ δ := by
    intro k hk hk'
    obtain ⟨a1, a2, a3, a4, a5⟩ := (List.forall₂_iff_get.1 hn.pairs).2 k hk (by omega)
    obtain ⟨b1, b2, b3, t, b4, b5⟩ := (List.forall₂_iff_get.1 hq).2 k (by omega) hk'
    simp only [List.get_eq_getElem] at a1 a2 a3 a4 a5 b1 b2 b3 b4 b5
    rw [a3, a4] at b4
    exact ⟨_, t, by rw [b1, a1], by rw [b2, a2], by rw [b3, a4], b4, b5, a5⟩
  have harcs : ∀ μ : Nat → Int, arcsCost qs μ = ∑ k : Fin P.pairs.length,
      (qs[(k : Nat)]'(by omega)).B (μ (qs[(k : Nat)]'(by omega)).i - μ (qs[(k : Nat)]'(by omega)).j) := by
    intro μ
    unfold arcsCost
    rw [← Fin.sum_univ_fun_getElem]
    exact (Equiv.sum_comp (finCongr (show P.pairs.length = qs.length by omega)) _).symm
  have hIoc : Finset.Ioc 0 P.n = Finset.Icc 1 P.n := by ext i; simp; omega
  have hcard : (Finset.Icc 1 P.n).card = P.n := by simp
  have hcard' : (Finset.univ : Finset (Fin P.pairs.length)).card = P.pairs.length := by simp
  -- an assignment gives a sum
  have hA : ∀ μ ω, Feasible P μ ω → ∃ w ∈ reach P' qs 0 (fun _ => 0) 0,
      w ≤ cost P μ ω + (((P.n + P.pairs.length : Nat) : K) * δ + P.pairs.length * (2 * δ * W)) := by
    intro μ ω hf
    refine ⟨_, ⟨fun i => if i = 0 then 0 else μ i, fun i hi => if_pos (by omega), fun i h1 h2 => ?_, fun q hqm => ?_, rfl⟩, ?_⟩
    · rw [hn.n] at h2
      have := hf.1 i (by omega) h2
      dsimp only
      rw [if_neg (by omega), hn.lo i (by omega) h2, hn.hi i (by omega) h2]
      exact this
    · obtain ⟨k, hk, rfl⟩ := List.getElem_of_mem hqm
      have hk' : k < P.pairs.length := by omega
      obtain ⟨h, t, c1, c2, c3, -⟩ := hpair k hk' hk
      have hp := List.getElem_mem hk'
      have i1 := wf.i_pos _ hp
      have j1 := wf.j_pos _ hp
      have := hf.2 k hk'
      rw [c1, c2, c3]
      dsimp only
      rw [if_neg (by omega), if_neg (by omega)]
      omega
    · rw [zero_add, hn.n, hIoc, harcs]
      unfold cost
      have h1 := sum_le_add (s := Finset.Icc 1 P.n) (a := fun i => P'.F i (if i = 0 then 0 else μ i)) (b := fun i => P.F i (μ i)) (c := δ) (by
        intro i hi
        obtain ⟨i1, i2⟩ := Finset.mem_Icc.1 hi
        have := hf.1 i i1 i2
        have := abs_le.1 (hn.nodes i i1 i2 _ this.1 this.2)
        rw [if_neg (by omega)]
        linarith)
      have h2 := sum_le_add (s := (Finset.univ : Finset (Fin P.pairs.length)))
        (a := fun k => (qs[(k : Nat)]'(by omega)).B ((if (qs[(k : Nat)]'(by omega)).i = 0 then 0 else μ (qs[(k : Nat)]'(by omega)).i) -
          if (qs[(k : Nat)]'(by omega)).j = 0 then 0 else μ (qs[(k : Nat)]'(by omega)).j))
        (b := fun k => P.pairs[k].B (ω k)) (c := δ + 2 * δ * W) (by
        intro k _
        obtain ⟨h, t, c1, c2, c3, c4, c5, c6⟩ := hpair k k.2 (by omega)
        have hp := List.getElem_mem k.2
        have i1 := wf.i_pos _ hp
        have j1 := wf.j_pos _ hp
        have hω := hf.2 k k.2
        have hw : ((P.pairs[(k : Nat)].u - P.pairs[(k : Nat)].l : Int) : K) ≤ (W : K) := by exact_mod_cast hW _ hp
        have := c4.near (cv _ hp) c6 (x := μ P.pairs[(k : Nat)].i - μ P.pairs[(k : Nat)].j) (ω := ω k) hω.2.2 hω.1 hω.2.1
        have := mul_le_mul_of_nonneg_left hw (show 0 ≤ 2 * δ by linarith)
        rw [c1, c2, if_neg (by omega), if_neg (by omega), c5]
        show _ ≤ P.pairs[(k : Nat)].B (ω k) + _
        linarith)
      rw [hcard] at h1
      rw [hcard'] at h2
      push_cast
      linarith
  -- a sum gives an assignment
  have hB : ∀ w ∈ reach P' qs 0 (fun _ => 0) 0, ∃ μ ω, Feasible P μ ω ∧ cost P μ ω ≤ w + ((P.n + P.pairs.length : Nat) : K) * δ := by
    rintro w ⟨μ, -, h2, h3, rfl⟩
    have hnode : ∀ i, 1 ≤ i → i ≤ P.n → P.lo i ≤ μ i ∧ μ i ≤ P.hi i := by
      intro i h1 h2'
      have := h2 i (by omega) (by rw [hn.n]; exact h2')
      rwa [hn.lo i h1 h2', hn.hi i h1 h2'] at this
    have hω : ∃ ω : Nat → Int, ∀ (k : Nat) (hk : k < P.pairs.length), P.pairs[k].l ≤ ω k ∧ ω k ≤ P.pairs[k].u ∧
        μ P.pairs[k].i - μ P.pairs[k].j ≤ ω k ∧
        P.pairs[k].B (ω k) ≤ (qs[k]'(by omega)).B (μ (qs[k]'(by omega)).i - μ (qs[k]'(by omega)).j) + δ := by
      have : ∀ k, ∃ o : Int, ∀ hk : k < P.pairs.length, P.pairs[k].l ≤ o ∧ o ≤ P.pairs[k].u ∧
          μ P.pairs[k].i - μ P.pairs[k].j ≤ o ∧
          P.pairs[k].B o ≤ (qs[k]'(by omega)).B (μ (qs[k]'(by omega)).i - μ (qs[k]'(by omega)).j) + δ := by
        intro k
        by_cases hk : k < P.pairs.length
        · have hk' : k < qs.length := by omega
          obtain ⟨h, t, c1, c2, c3, c4, c5, c6⟩ := hpair k hk hk'
          have t1 := c4.lo
          have t2 := c4.hi
          have hb := h3 _ (List.getElem_mem hk')
          rw [c1, c2, c3] at hb
          refine ⟨max t (μ P.pairs[k].i - μ P.pairs[k].j), fun _ => ⟨by omega, by omega, by omega, ?_⟩⟩
          have := abs_le.1 (c6 (max t (μ P.pairs[k].i - μ P.pairs[k].j)) (by omega) (by omega))
          rw [c5, c1, c2]
          linarith
        · exact ⟨0, fun h => absurd h hk⟩
      choose ω h using this
      exact ⟨ω, fun k hk => h k hk⟩
    obtain ⟨ω, hω⟩ := hω
    refine ⟨μ, ω, ⟨hnode, fun k hk => ⟨(hω k hk).1, (hω k hk).2.1, (hω k hk).2.2.1⟩⟩, ?_⟩
    rw [zero_add, hn.n, hIoc, harcs]
    unfold cost
    have h1 := sum_le_add (s := Finset.Icc 1 P.n) (a := fun i => P.F i (μ i)) (b := fun i => P'.F i (μ i)) (c := δ) (by
      intro i hi
      obtain ⟨i1, i2⟩ := Finset.mem_Icc.1 hi
      have := hnode i i1 i2
      have := abs_le.1 (hn.nodes i i1 i2 _ this.1 this.2)
      linarith)
    have h2 := sum_le_add (s := (Finset.univ : Finset (Fin P.pairs.length))) (a := fun k => P.pairs[k].B (ω k))
      (b := fun k => (qs[(k : Nat)]'(by omega)).B (μ (qs[(k : Nat)]'(by omega)).i - μ (qs[(k : Nat)]'(by omega)).j)) (c := δ)
      fun k _ => (hω k k.2).2.2.2
    rw [hcard] at h1
    rw [hcard'] at h2
    push_cast
    linarith
  refine ⟨?_, ?_⟩
  · rcases hr with ⟨rfl, hS⟩ | ⟨v, rfl, hv, -⟩
    · refine ⟨fun _ => ?_, fun _ => rfl⟩
      rintro ⟨μ, ω, hf⟩
      obtain ⟨w, hw, -⟩ := hA μ ω hf
      rw [hS] at hw
      exact hw
    · refine ⟨fun h => (by cases h), fun h => ?_⟩
      obtain ⟨μ, ω, hf, -⟩ := hB v hv
      exact absurd ⟨μ, ω, hf⟩ h
  · rintro v o rfl ⟨⟨μ, ω, hf, rfl⟩, ho⟩
    rcases hr with ⟨h, -⟩ | ⟨v', h, hv, hmin⟩
    · cases h
    · cases h
      obtain ⟨w, hw, hle⟩ := hA μ ω hf
      have h1 := hmin hw
      obtain ⟨μ', ω', hf', hle'⟩ := hB v hv
      have h2 := ho μ' ω' hf'
      have h3 : (0 : K) ≤ P.pairs.length * (2 * δ * W) := by
        rcases Nat.eq_zero_or_pos P.pairs.length with h | h
        · rw [h]; simp
        · have hp := List.getElem_mem h
          have := wf.le _ hp
          have := hW _ hp
          have hw0 : (0 : K) ≤ (W : K) := by exact_mod_cast (show (0 : Int) ≤ W by omega)
          positivity
      rw [abs_le]
      constructor <;> linarith

end Oracle
end AHO
