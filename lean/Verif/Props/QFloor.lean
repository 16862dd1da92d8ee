import Verif.Proof.FlowSteps
import Verif.Props.Flow
/-!
# The rounding in `Flow::q`
-/

namespace AHO.Props
open Spec Flow
set_option linter.unusedSectionVars false

section
variable {K : Type} [Field K] [LinearOrder K] [IsStrictOrderedRing K]
variable {imax : Int} {s : Flow K} {k : Nat} {e : OmegaLimit K} {p : Pair K} {a b : Int} {f : K}

/-- What `q` would be with the `⌊…⌋` of the paper, which the comment in the program (`src/Flow.cpp:133-134`) mentions, in place of `⌈…⌉ - 1`: for an
arc with flow `f`, when the potentials of its ends differ by `d / N`. -/
def paperQ (M : K) (N : Int) (p : Pair K) (d : Int) (f : K) : K :=
  if d / N + 1 > p.u then M - f
  else if d / N < p.l then 0
  else max 0 (p.B (d / N + 1) - p.B (d / N) - f)

theorem q_raw (he : s.edges.rd k = .ok e) (hp : e.Is p) (hi : s.scaling.rd e.i = .ok a) (hj : s.scaling.rd e.j = .ok b)
    (hf : s.flows.rd k = .ok f) (hN : 2 * ((s.n : Int) + 1) ≤ imax) (hd : |a - b| ≤ imax - 2) (h1 : -s.M ≤ f) (h2 : f ≤ s.M) :
    q imax s k = .ok (max 0 (lft (2 * ((s.n : Int) + 1)) s.M p.l p.u p.B (a - b) - f)) := by
  have hN0 : 0 < 2 * ((s.n : Int) + 1) := by omega
  have hNe : ((2 * (s.n + 1) : Nat) : Int) = 2 * ((s.n : Int) + 1) := by push_cast; ring
  obtain ⟨d1, d2⟩ := abs_le.1 hd
  unfold q
  rw [he, ok_bind, hi, ok_bind, hj, ok_bind, ck_ok (by omega) (by omega), ok_bind]
  unfold toInt
  rw [hNe, ck_ok (by omega) hN, ok_bind]
  obtain ⟨r1, r2⟩ := cdiv_range (d := a - b) (P := imax - 2) hN0 (by omega) (by omega)
  have hc : ceilDiv imax (a - b) (2 * ((s.n : Int) + 1)) = .ok (cdiv (a - b) (2 * ((s.n : Int) + 1))) := by
    unfold ceilDiv
    rw [if_neg (by omega), tdiv_cdiv hN0, ck_ok (by omega) (by omega)]
  rw [hc, ok_bind, ck_ok (by omega) (by omega), ok_bind, ck_ok (by omega) (by omega), ok_bind, hf, ok_bind]
  unfold lft
  simp only [sub_add_cancel]
  rw [hp.u, hp.l]
  by_cases c1 : cdiv (a - b) (2 * ((s.n : Int) + 1)) > p.u
  · rw [if_pos c1, if_pos c1, max_eq_right (by linarith)]
  · rw [if_neg c1, if_neg c1]
    by_cases c2 : cdiv (a - b) (2 * ((s.n : Int) + 1)) - 1 < p.l
    · rw [if_pos c2, if_pos c2, max_eq_left (by linarith)]
    · rw [if_neg c2, if_neg c2, hp.fn _ (by omega) (by omega), ok_bind, hp.fn _ (by omega) (by omega), ok_bind]
      congr 1
      unfold dmax
      rw [max_def_lt]

theorem paperQ_eq {M : K} {N : Int} (h : EdgeOK N M p.l p.u p.B) {d : Int} (h1 : -M ≤ f) (h2 : f ≤ M) :
    paperQ M N p d f = max 0 (penal M p.l p.u p.B (d / N + 1) - penal M p.l p.u p.B (d / N) - f) := by
  rw [penal_slope h]
  unfold paperQ lft
  rw [cdiv_mul h.npos, add_sub_cancel_right]
  by_cases c1 : d / N + 1 > p.u
  · rw [if_pos c1, if_pos c1, max_eq_right (by linarith)]
  · rw [if_neg c1, if_neg c1]
    by_cases c2 : d / N < p.l
    · rw [if_pos c2, if_pos c2, max_eq_left (by linarith)]
    · rw [if_neg c2, if_neg c2]

theorem eps_iff {M : K} {N : Int} (h : EdgeOK N M p.l p.u p.B) {d : Int} {g : K} :
    EpsOptimal M N 0 p d g ↔ lft N M p.l p.u p.B d ≤ g ∧ g ≤ penal M p.l p.u p.B (d / N + 1) - penal M p.l p.u p.B (d / N) := by
  have hN := h.npos
  unfold EpsOptimal
  simp only [sub_zero, add_zero]
  constructor
  · rintro ⟨a1, a2⟩
    refine ⟨?_, a2 _ ?_⟩
    · have := a1 (cdiv d N - 1) (by have := (cdiv_bounds d N hN).1; rw [mul_comm]; exact this)
      have h2 := penal_slope h (cdiv d N - 1)
      rw [sub_add_cancel, lft_cdiv hN] at h2
      rw [sub_add_cancel] at this
      exact h2 ▸ this
    · exact Int.lt_ediv_add_one_mul_self d hN
  · rintro ⟨a1, a2⟩
    refine ⟨fun x hx => (slope_le_lft h hx).trans a1, fun x hx => a2.trans ?_⟩
    have h3 : d / N ≤ x := by
      have := Int.ediv_lt_of_lt_mul hN hx
      omega
    have := slope_mono h (show d / N + 1 ≤ x + 1 by omega)
    rwa [add_sub_cancel_right, add_sub_cancel_right] at this

/-- C85. The comment in `q`: "the paper has ⌊…⌋ here, but ⌈…⌉ - 1 meets the demands as well, and when … is an integer in `[l, u]` it avoids pushing the part
of the flow whose price is zero". For an edge with flow `f`, at most `M` in absolute value, when the potentials of its ends differ by `d / N`, where `N = 2(n+1)`:
* both amounts are nonnegative, and that of the program is not greater than that of the paper;
* if the edge can become optimal by pushing flow forwards, both amounts make it so; that of the program is the least such amount, that of the paper the greatest;
* the amounts differ only if `d / N` is an integer in `[l, u]`; then the difference of the potentials attains the least value of `B(x) - g x` for all flows `g` between
  the two, so that no unit of the flow between them changes the value of the dual problem at these potentials. -/
theorem C85_rounding (he : s.edges.rd k = .ok e) (hp : e.Is p) (hle : p.l ≤ p.u) (hc : Convex p.B p.l p.u)
    (hb : ∀ x, p.l ≤ x → x + 1 ≤ p.u → |p.B (x + 1) - p.B x| ≤ s.M)
    (hi : s.scaling.rd e.i = .ok a) (hj : s.scaling.rd e.j = .ok b) (hf : s.flows.rd k = .ok f)
    (hN : 2 * ((s.n : Int) + 1) ≤ imax) (hd : |a - b| ≤ imax - 2) (hfM : |f| ≤ s.M) :
    ∃ y, q imax s k = .ok y ∧ 0 ≤ y ∧ y ≤ paperQ s.M (2 * ((s.n : Int) + 1)) p (a - b) f ∧
      ((∃ z, 0 ≤ z ∧ EpsOptimal s.M (2 * ((s.n : Int) + 1)) 0 p (a - b) (f + z)) →
        IsLeast {z | 0 ≤ z ∧ EpsOptimal s.M (2 * ((s.n : Int) + 1)) 0 p (a - b) (f + z)} y ∧
        IsGreatest {z | 0 ≤ z ∧ EpsOptimal s.M (2 * ((s.n : Int) + 1)) 0 p (a - b) (f + z)} (paperQ s.M (2 * ((s.n : Int) + 1)) p (a - b) f)) ∧
      (y ≠ paperQ s.M (2 * ((s.n : Int) + 1)) p (a - b) f → ∃ x, p.l ≤ x ∧ x ≤ p.u ∧ a - b = x * (2 * ((s.n : Int) + 1)) ∧
        ∀ g, f + y ≤ g → g ≤ f + paperQ s.M (2 * ((s.n : Int) + 1)) p (a - b) f → ∀ z, p.l ≤ z → z ≤ p.u →
          p.B x - g * (x : K) ≤ p.B z - g * (z : K)) := by
  obtain ⟨f1, f2⟩ := abs_le.1 hfM
  have hM : 0 ≤ s.M := (abs_nonneg f).trans hfM
  set N : Int := 2 * ((s.n : Int) + 1) with hNd
  have hN0 : 0 < N := by omega
  have h : EdgeOK N s.M p.l p.u p.B := ⟨hN0, hle, hc, hb, hM⟩
  set d := a - b with hdd
  have hrs : lft N s.M p.l p.u p.B d ≤ penal s.M p.l p.u p.B (d / N + 1) - penal s.M p.l p.u p.B (d / N) := by
    have h1 := penal_slope h (d / N)
    rw [h1]
    exact lft_mono h (Int.lt_ediv_add_one_mul_self d hN0).le
  have hq := q_raw he hp hi hj hf hN hd f1 f2
  rw [paperQ_eq h f1 f2]
  refine ⟨_, hq, le_max_left _ _, max_le_max le_rfl (by linarith), fun ⟨z, z0, hz⟩ => ?_, fun hne => ?_⟩
  · obtain ⟨z1, z2⟩ := (eps_iff h).1 hz
    refine ⟨⟨⟨le_max_left _ _, (eps_iff h).2 ⟨?_, ?_⟩⟩, fun w hw => ?_⟩, ⟨⟨le_max_left _ _, (eps_iff h).2 ⟨?_, ?_⟩⟩, fun w hw => ?_⟩⟩
    · have := le_max_right 0 (lft N s.M p.l p.u p.B d - f)
      linarith
    · rw [← le_sub_iff_add_le', max_le_iff]
      constructor <;> linarith
    · have := ((eps_iff h).1 hw.2).1
      exact max_le hw.1 (by linarith)
    · have := le_max_right 0 (penal s.M p.l p.u p.B (d / N + 1) - penal s.M p.l p.u p.B (d / N) - f)
      linarith
    · rw [← le_sub_iff_add_le', max_le_iff]
      constructor <;> linarith
    · have := ((eps_iff h).1 hw.2).2
      exact le_max_of_le_right (by linarith)
  · by_cases hdv : N * (d / N) = d
    · have hcd : cdiv d N = d / N := by
        conv_lhs => rw [← hdv, mul_comm]
        exact cdiv_mul hN0 _
      have hl : lft N s.M p.l p.u p.B d = penal s.M p.l p.u p.B (d / N) - penal s.M p.l p.u p.B (d / N - 1) := by
        rw [lft_penal hle, hcd]
      have hx1 : p.l ≤ d / N := by
        by_contra hlt
        apply hne
        rw [hl]
        have e1 : penal s.M p.l p.u p.B (d / N + 1) - penal s.M p.l p.u p.B (d / N) = -s.M := by
          rw [penal_slope h]; unfold lft
          rw [cdiv_mul hN0, if_neg (by omega), if_pos (by omega)]
        have e2 : penal s.M p.l p.u p.B (d / N) - penal s.M p.l p.u p.B (d / N - 1) = -s.M := by
          have := penal_slope h (d / N - 1)
          rw [sub_add_cancel] at this
          rw [this]; unfold lft
          rw [cdiv_mul hN0, if_neg (by omega), if_pos (by omega)]
        rw [e1, e2]
      have hx2 : d / N ≤ p.u := by
        by_contra hlt
        apply hne
        rw [hl]
        have e1 : penal s.M p.l p.u p.B (d / N + 1) - penal s.M p.l p.u p.B (d / N) = s.M := by
          rw [penal_slope h]; unfold lft
          rw [cdiv_mul hN0, if_pos (by omega)]
        have e2 : penal s.M p.l p.u p.B (d / N) - penal s.M p.l p.u p.B (d / N - 1) = s.M := by
          have := penal_slope h (d / N - 1)
          rw [sub_add_cancel] at this
          rw [this]; unfold lft
          rw [cdiv_mul hN0, if_pos (by omega)]
        rw [e1, e2]
      refine ⟨d / N, hx1, hx2, by rw [mul_comm]; exact hdv.symm, fun g g1 g2 z z1 z2 => ?_⟩
      have g3 : lft N s.M p.l p.u p.B d ≤ g := by
        have := le_max_right 0 (lft N s.M p.l p.u p.B d - f)
        linarith
      have g4 : g ≤ penal s.M p.l p.u p.B (d / N + 1) - penal s.M p.l p.u p.B (d / N) := by
        rcases le_total (penal s.M p.l p.u p.B (d / N + 1) - penal s.M p.l p.u p.B (d / N) - f) 0 with h0 | h0
        · exact absurd (by rw [max_eq_left h0, max_eq_left (by linarith)]) hne
        · rw [max_eq_right h0] at g2; linarith
      have := penal_min h (hl ▸ g3) g4 z
      unfold penal at this
      rwa [if_neg (by omega), if_neg (by omega), if_neg (by omega), if_neg (by omega)] at this
    · exfalso
      apply hne
      have hcd : cdiv d N = d / N + 1 := by
        obtain ⟨b1, b2⟩ := cdiv_floor d N hN0
        obtain ⟨b3, b4⟩ := cdiv_bounds d N hN0
        have := Int.mul_ediv_self_le (x := d) (k := N) (by omega)
        rcases b1.lt_or_eq with hlt | heq
        · omega
        · rw [← heq] at b4; omega
      rw [lft_penal hle, hcd, add_sub_cancel_right]

end

/-- The arc from node `0` to node `1` with cost `|x|` on `[-1, 1]`. -/
def qExArc : Pair ℚ := ⟨0, 1, -1, 1, fun x => |(x : ℚ)|⟩

/-- the limit of the program for it -/
def qExLimit : OmegaLimit ℚ := { i := 0, j := 1, l := -1, u := 1, fn := fun x => .ok |(x : ℚ)| }

/-- The hypotheses are met in the state in which the constructor leaves a network with this arc: all potentials and flows are zero. -/
example : ∃ s, Flow.mk' (2 ^ 31 - 1) 20 1 (10 : ℚ) 2 [qExLimit] = .ok s ∧ ∃ e, s.edges.rd 0 = .ok e ∧ e.Is qExArc ∧ qExArc.l ≤ qExArc.u ∧
    Convex qExArc.B qExArc.l qExArc.u ∧ (∀ x, qExArc.l ≤ x → x + 1 ≤ qExArc.u → |qExArc.B (x + 1) - qExArc.B x| ≤ s.M) ∧
    s.scaling.rd e.i = .ok 0 ∧ s.scaling.rd e.j = .ok 0 ∧ s.flows.rd 0 = .ok 0 ∧ 2 * ((s.n : Int) + 1) ≤ 2 ^ 31 - 1 ∧
    |(0 : Int) - 0| ≤ 2 ^ 31 - 1 - 2 ∧ |(0 : ℚ)| ≤ s.M := by
  refine ⟨_, rfl, qExLimit, rfl, ⟨rfl, rfl, rfl, rfl, fun x _ _ => rfl⟩, by decide, fun x h1 h2 => ?_, fun x h1 h2 => ?_, rfl, rfl, rfl,
    by decide +kernel, by decide +kernel, by decide +kernel⟩
  · have h3 : x = -1 := by
      have : x + 2 ≤ 1 := h2
      have : -1 ≤ x := h1
      omega
    subst h3
    decide +kernel
  · have : x + 1 ≤ 1 := h2
    have : -1 ≤ x := h1
    obtain rfl | rfl : x = -1 ∨ x = 0 := by omega
    all_goals decide +kernel

/-- There the program pushes nothing through the arc, and the flow `0` is optimal already; with the rounding of the paper one unit would be pushed. -/
example : (do
      let s ← Flow.mk' (2 ^ 31 - 1) 20 1 (10 : ℚ) 2 [qExLimit]
      q (2 ^ 31 - 1) s 0 : Res ℚ) = .ok 0 ∧ paperQ 10 4 qExArc 0 0 = 1 := by
  decide +kernel

end AHO.Props
