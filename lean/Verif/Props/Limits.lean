import Verif.Proof.Transform
import Verif.Props.Example
import Mathlib.Data.Nat.Size
/-!
# Properties of `OmegaLimit`, `partition_point` and `merge_limits`
-/

namespace AHO.Props
open Spec

/-! ### C16 -/

/-- C16. For a predicate which is true on the first part of `[l, r)` and false on the rest, `partition_point` returns the
first point where it is false (`r` if there is none). The predicate is assumed to be callable on `[l, r)` only. At most
as many probes are made as `r - l` has bits: every round of the loop, except for the last one, makes one probe, and
one round more than that is enough. -/
theorem C16_partition_point {imax : Int} {pred : Int → Res Bool} {P : Int → Bool} {l r : Int} (hlr : l ≤ r)
    (hl : -imax - 1 ≤ l) (hr : r ≤ imax) (hw : r - l ≤ imax) (hp : ∀ x, l ≤ x → x < r → pred x = .ok (P x))
    (hm : ∀ x y, l ≤ x → x ≤ y → y < r → P y = true → P x = true) (fuel : Nat) (hf : Nat.size (r - l).toNat + 1 ≤ fuel) :
    ∃ p, partitionPoint imax pred fuel l r = .ok p ∧ l ≤ p ∧ p ≤ r ∧ (∀ x, l ≤ x → x < p → P x = true) ∧
      ∀ x, p ≤ x → x < r → P x = false := by
  refine partitionPoint_mono (k := Nat.size (r - l).toNat) (by omega) hlr ?_ hl hr hw hp hm
  have := Nat.lt_size_self (r - l).toNat
  have h : (((r - l).toNat : Nat) : Int) < ((2 ^ Nat.size (r - l).toNat : Nat) : Int) := by exact_mod_cast this
  push_cast at h
  omega

/-- the first integer in `[-3, 4)` whose square is at most 2; the predicate refuses arguments outside `[-3, 4)` -/
example : (-3 : Int) ≤ 0 ∧ -(2 ^ 31 - 1) - 1 ≤ (-3 : Int) ∧
    (∀ x, -3 ≤ x → x < (0 : Int) → (fun x : Int => if -3 ≤ x ∧ x < 0 then Except.ok (decide (2 < x * x)) else .error .callback) x =
      (.ok ((fun x : Int => decide (2 < x * x)) x) : Res Bool)) ∧
    (∀ x y : Int, -3 ≤ x → x ≤ y → y < 0 → decide (2 < y * y) = true → decide (2 < x * x) = true) := by
  refine ⟨by norm_num, by norm_num, fun x a b => by simp [a, b], fun x y a b c d => ?_⟩
  simp only [decide_eq_true_eq] at d ⊢
  nlinarith

section
variable {K : Type} [Field K] [LinearOrder K] [IsStrictOrderedRing K]

/-! ### C14, C15 -/

/-- C15. `min` returns the least value of a convex cost on the range; instead of convexity it is enough that the values first decrease and then
do not decrease any more. -/
theorem C15_min {imax : Int} {e : OmegaLimit K} {p : Pair K} (he : e.Is p) (hle : p.l ≤ p.u) (hlo : -imax - 1 ≤ p.l)
    (hhi : p.u ≤ imax) (hw : p.u - p.l ≤ imax) (hc : Valley p.B p.l p.u) :
    ∃ m, Returns (fun fuel => e.minimum imax fuel) m ∧ IsMinCost p m := by
  have hf : Fits imax (Flow.bits imax) e.l e.u := by
    rw [he.l, he.u]; exact ⟨hle, hlo, hhi, hw, Flow.bits_spec (by omega)⟩
  have hg : e.fn.Is p.B e.l e.u := by rw [he.l, he.u]; exact he.fn
  have hc' : Valley p.B e.l e.u := by rw [he.l, he.u]; exact hc
  obtain ⟨q, q1, q2, q3, q4⟩ := minimum_valley (imax := imax) (fuel := Flow.bits imax + 1) (Nat.lt_succ_self _) hf hg hc'
  rw [he.l, he.u] at q4
  rw [he.l] at q2
  rw [he.u] at q3
  refine ⟨p.B q, returns_of (Flow.bits imax + 1) (fun fuel hfu => ?_) fun f f' h => minimum_le h e, ⟨q, q2, q3, rfl⟩, q4⟩
  obtain ⟨q', q1', q2', q3', q4'⟩ := minimum_valley (imax := imax) (fuel := fuel) hfu hf hg hc'
  rw [he.l] at q2'
  rw [he.u] at q3'
  rw [he.l, he.u] at q4'
  rw [q1', le_antisymm (q4 q' q2' q3') (q4' q q2 q3)]

/-- `3 x² - 2 x` on `[-5, 6]` -/
example : (⟨⟨-5, 6, fun x => .ok (3 * (x : ℚ) ^ 2 - 2 * x)⟩, 1, 2⟩ : OmegaLimit ℚ).Is ⟨1, 2, -5, 6, fun x => 3 * (x : ℚ) ^ 2 - 2 * x⟩ ∧
    Valley (fun x : Int => 3 * (x : ℚ) ^ 2 - 2 * x) (-5) 6 := by
  refine ⟨⟨rfl, rfl, rfl, rfl, fun x _ _ => rfl⟩, Convex.valley fun x _ _ => ?_⟩
  push_cast; nlinarith

/-- C14. After `pre_processing`, the callback returns for every `x ≤ u`, also for `x` below `l`, the least cost of an
`ω` in `[l, u]` with `ω ≥ x`. The cost is convex, or at least its values first decrease and then do not decrease any more. The callback given by the user is called on `[l, u]` only. Indices and range are
unchanged. -/
theorem C14_pre_processing {imax : Int} {e : OmegaLimit K} {p : Pair K} (he : e.Is p) (hle : p.l ≤ p.u)
    (hlo : -imax - 1 ≤ p.l) (hhi : p.u ≤ imax) (hw : p.u - p.l ≤ imax) (hc : Valley p.B p.l p.u) :
    ∃ fn', Returns (fun fuel => e.preProcessing imax fuel) { e with fn := fn' } ∧
      ∀ x, x ≤ p.u → ∃ v, fn' x = .ok v ∧ (∃ ω, p.l ≤ ω ∧ ω ≤ p.u ∧ x ≤ ω ∧ p.B ω = v) ∧
        ∀ ω, p.l ≤ ω → ω ≤ p.u → x ≤ ω → v ≤ p.B ω := by
  have hf : Fits imax (Flow.bits imax) e.l e.u := by
    rw [he.l, he.u]; exact ⟨hle, hlo, hhi, hw, Flow.bits_spec (by omega)⟩
  have hg : e.fn.Is p.B e.l e.u := by rw [he.l, he.u]; exact he.fn
  have hc' : Valley p.B e.l e.u := by rw [he.l, he.u]; exact hc
  obtain ⟨fn', g', q1, q2, q3, q4, -⟩ := preProcessing_valley (imax := imax) (fuel := Flow.bits imax + 1) (Nat.lt_succ_self _) hf hg hc'
  rw [he.u] at q2
  rw [he.l, he.u] at q3 q4
  refine ⟨fn', returns_of (Flow.bits imax + 1) (fun fuel hfu => ?_) fun f f' h => preProcessing_le h e, fun x hx => ?_⟩
  · rcases preProcessing_le hfu e (imax := imax) with h | h
    · rw [q1] at h; cases h
    · rw [← h, q1]
  · obtain ⟨y, y1, y2, y3, y4⟩ := q3 x hx
    exact ⟨g' x, q2 x hx, ⟨y, y1, y3, y2, y4.symm⟩, fun ω a b c => q4 x ω c a b⟩

example : (⟨⟨-5, 6, fun x => if -5 ≤ x ∧ x ≤ 6 then .ok (3 * (x : ℚ) ^ 2 - 2 * x) else .error .callback⟩, 1, 2⟩ : OmegaLimit ℚ).Is
      ⟨1, 2, -5, 6, fun x => 3 * (x : ℚ) ^ 2 - 2 * x⟩ ∧
    Valley (fun x : Int => 3 * (x : ℚ) ^ 2 - 2 * x) (-5) 6 := by
  refine ⟨⟨rfl, rfl, rfl, rfl, fun x a b => ?_⟩, Convex.valley fun x _ _ => ?_⟩
  · have a' : -5 ≤ x := a
    have b' : x ≤ 6 := b
    simp [a', b']
  · push_cast; nlinarith

/-! ### C10 -/

/-- C10, `reverse`. The limit with the ends exchanged has the same feasible potentials and the same cost. -/
theorem C10_reverse {imax : Int} {e : OmegaLimit K} {p : Pair K} (he : e.Is p) (hle : p.l ≤ p.u) (hlo : -imax ≤ p.l)
    (hhi : p.u ≤ imax) : ∃ e' p', e.reverse imax = .ok e' ∧ e'.Is p' ∧ p'.i = p.j ∧ p'.j = p.i ∧
      ∀ π : Nat → Int, (ArcsFeasible [p'] π ↔ ArcsFeasible [p] π) ∧ arcsCost [p'] π = arcsCost [p] π := by
  obtain ⟨fn', f1, f2⟩ := reverse_spec (imax := imax) (e := e) (by rw [he.l]; omega)
    (by rw [he.l, he.u]; omega) (by rw [he.u]; omega)
  refine ⟨_, revP p, f1, ⟨he.j, he.i, by rw [he.u]; rfl, by rw [he.l]; rfl, ?_⟩, rfl, rfl, fun π => ⟨?_, ?_⟩⟩
  · have := f2 p.B (by rw [he.l, he.u]; exact he.fn)
    rw [he.l, he.u] at this
    exact this
  · rw [arcsFeasible_cons, arcsFeasible_cons, revP_range]
  · rw [arcsCost_cons, arcsCost_cons, revP_cost]

example : (⟨⟨-5, 6, fun x => .ok (x : ℚ)⟩, 1, 2⟩ : OmegaLimit ℚ).Is ⟨1, 2, -5, 6, fun x => (x : ℚ)⟩ ∧
    -(2 ^ 31 - 1) ≤ (-5 : Int) ∧ (6 : Int) ≤ 2 ^ 31 - 1 :=
  ⟨⟨rfl, rfl, rfl, rfl, fun x _ _ => rfl⟩, by norm_num, by norm_num⟩

/-- C10, `merge`. Two limits on the same ordered pair: the error flag is returned exactly if no difference is in both
ranges; the merged limit has the intersection as its range and the sum as its cost. -/
theorem C10_merge {e o : OmegaLimit K} {p q : Pair K} (he : e.Is p) (ho : o.Is q) (hi : p.i = q.i) (hj : p.j = q.j) :
    ∃ e' err m, e.merge o = .ok (e', err) ∧ e'.Is m ∧ m.i = p.i ∧ m.j = p.j ∧
      (err = true ↔ ¬ ∃ x, (p.l ≤ x ∧ x ≤ p.u) ∧ (q.l ≤ x ∧ x ≤ q.u)) ∧
      (∀ x, (m.l ≤ x ∧ x ≤ m.u) ↔ (p.l ≤ x ∧ x ≤ p.u) ∧ (q.l ≤ x ∧ x ≤ q.u)) ∧ ∀ x, m.B x = p.B x + q.B x := by
  obtain ⟨fn', m1, m2⟩ := merge_spec (e := e) (o := o) (by rw [he.i, ho.i, hi]) (by rw [he.j, ho.j, hj])
  refine ⟨_, _, mrgP p q, m1, ⟨he.i, he.j, by rw [he.l, ho.l]; rfl, by rw [he.u, ho.u]; rfl, ?_⟩, rfl, rfl, ?_, ?_, fun x => rfl⟩
  · have := m2 p.B q.B (by rw [he.l, he.u]; exact he.fn) (by rw [ho.l, ho.u]; exact ho.fn)
    rw [he.l, he.u, ho.l, ho.u] at this
    exact this
  · rw [he.l, he.u, ho.l, ho.u, decide_eq_true_eq]
    constructor
    · rintro h ⟨x, hx⟩; omega
    · intro h
      by_contra hc
      exact h ⟨max p.l q.l, by omega, by omega⟩
  · intro x
    simp only [mrgP]
    omega

example : (⟨⟨-5, 6, fun x => .ok (x : ℚ)⟩, 2, 1⟩ : OmegaLimit ℚ).Is ⟨2, 1, -5, 6, fun x => (x : ℚ)⟩ ∧
    (⟨⟨4, 9, fun x => .ok (3 * x : ℚ)⟩, 2, 1⟩ : OmegaLimit ℚ).Is ⟨2, 1, 4, 9, fun x => (3 * x : ℚ)⟩ :=
  ⟨⟨rfl, rfl, rfl, rfl, fun _ _ _ => rfl⟩, ⟨rfl, rfl, rfl, rfl, fun _ _ _ => rfl⟩⟩

/-- C10, `merge_limits`. Any list of limits, with any number of them on the same unordered pair and in either direction:
if `merge_limits` returns nothing, no potentials respect all the ranges; otherwise it returns limits with at most one
for every unordered pair of nodes, including node `0` which stands for the node limits. They are respected by the same
potentials as the given limits together with the node ranges, at the same cost. The costs need not be convex. -/
theorem C10_merge_limits {imax : Int} {P : Problem K} {Mus : List (MuLimit K)} {Omegas : List (OmegaLimit K)}
    (rep : Represents P Mus Omegas) (wf : WellFormed P) (hlo : ∀ p ∈ P.pairs, -imax ≤ p.l) (hhi : ∀ p ∈ P.pairs, p.u ≤ imax) :
    (ProblemSolver.mergeLimits imax ⟨P.n, Mus, Omegas⟩ = .ok none ∧ ∀ π, ¬ ArcsFeasible P.pairs π) ∨
    ∃ limits arcs, ProblemSolver.mergeLimits imax ⟨P.n, Mus, Omegas⟩ = .ok (some limits) ∧
      List.Forall₂ OmegaLimit.Is limits arcs ∧
      arcs.Pairwise (fun p q => ¬ (p.i = q.i ∧ p.j = q.j) ∧ ¬ (p.i = q.j ∧ p.j = q.i)) ∧
      ∀ π, (ArcsFeasible arcs π ↔ ArcsFeasible P.pairs π ∧
          ∀ k, 1 ≤ k → k ≤ P.n → P.lo k ≤ π k - π 0 ∧ π k - π 0 ≤ P.hi k) ∧
        arcsCost arcs π = arcsCost P.pairs π + ∑ k ∈ Finset.Icc 1 P.n, P.F k (π k - π 0) := by
  have hG : ProblemSolver.MergeInv imax fun p : Pair K => p.i ≠ p.j ∧ p.l ≤ p.u ∧ -imax ≤ p.l ∧ p.u ≤ imax ∧ 1 ≤ p.i ∧ 1 ≤ p.j := ⟨fun h => h.1, fun h => h.2.1, fun h => h.2.2.1, fun h => h.2.2.2.1,
    fun {p} h => ⟨h.1.symm, by simp only [revP]; omega, by simp only [revP]; omega, by simp only [revP]; omega,
      h.2.2.2.2.2, h.2.2.2.2.1⟩,
    fun {p q} h h' hle => ⟨h.1, hle, by simp only [mrgP]; omega, by simp only [mrgP]; omega, h.2.2.2.2⟩⟩
  unfold ProblemSolver.mergeLimits
  dsimp only
  rcases ProblemSolver.mergeLoop_gen (imax := imax) hG le_rfl Omegas P.pairs [] [] rep.omegas .nil .nil
      (fun q hq => ⟨wf.ne q hq, wf.le q hq, hlo q hq, hhi q hq, wf.i_pos q hq, wf.j_pos q hq⟩) (by simp) with
    ⟨m1, m2⟩ | ⟨mp, ps', m1, m2, m3, m4, m5, m6⟩
  · rw [m1]
    exact .inl ⟨rfl, fun π h => m2 π ⟨h, by simp [ArcsFeasible]⟩⟩
  · obtain ⟨es, e1, e2⟩ := ProblemSolver.musEdges_spec rep.len rep.mus P.n 1 le_rfl (by omega)
    rw [m1, ok_bind]
    dsimp only
    rw [e1, ok_bind]
    refine .inr ⟨_, ps' ++ ProblemSolver.musP P, rfl, ?_, ?_, ?_⟩
    · refine List.rel_append ?_ e2
      rw [List.forall₂_map_left_iff]
      exact m2.imp fun _ _ h => h.1
    · rw [List.pairwise_append]
      refine ⟨?_, ?_, ?_⟩
      · have hkv := m2
        clear m1 m5 m6 m4
        induction hkv with
        | nil => exact .nil
        | cons h ht ih =>
          obtain ⟨s1, s2⟩ := List.pairwise_cons.1 m3
          cases m2 with
          | cons _ m2 =>
          refine List.pairwise_cons.2 ⟨fun q hq => ?_, ih m2 s2⟩
          obtain ⟨kv, hkv, hq'⟩ := mem_forall₂ ht q hq
          have := s1 kv hkv
          rw [h.2.1, hq'.2.1] at this
          have a := h.2.2
          have b := hq'.2.2
          constructor
          · rintro ⟨c1, c2⟩
            rw [c1, c2] at this
            exact absurd this ProblemSolver.keyLt_irrefl
          · rintro ⟨c1, c2⟩
            omega
      · unfold ProblemSolver.musP
        rw [List.pairwise_map]
        refine (List.pairwise_lt_range' (s := 1) (n := P.n)).imp_of_mem fun {a b} ha hb hab => ?_
        rw [List.mem_range'_1] at ha hb
        exact ⟨by rintro ⟨h, -⟩; dsimp only at h; omega, by rintro ⟨h, -⟩; dsimp only at h; omega⟩
      · intro p hp q hq
        obtain ⟨k, k1, k2, rfl⟩ := ProblemSolver.mem_musP.1 hq
        have := (m4 p hp).2.2.2.2
        exact ⟨by rintro ⟨-, h⟩; dsimp only at h; omega, by rintro ⟨h, -⟩; dsimp only at h; omega⟩
    · intro π
      have := m6 π
      rw [arcsFeasible_append, arcsCost_append, this.1, this.2, ProblemSolver.cost_musP]
      refine ⟨⟨fun h => ⟨h.1.1, fun k k1 k2 => h.2 _ (ProblemSolver.mem_musP.2 ⟨k, k1, k2, rfl⟩)⟩,
        fun h => ⟨⟨h.1, by simp [ArcsFeasible]⟩, ?_⟩⟩, by simp [arcsCost]⟩
      intro q hq
      obtain ⟨k, k1, k2, rfl⟩ := ProblemSolver.mem_musP.1 hq
      exact h.2 k k1 k2

example : Represents exP exMus exOmegas ∧ WellFormed exP ∧ (∀ p ∈ exP.pairs, -(2 ^ 31 - 1) ≤ p.l) ∧
    (∀ p ∈ exP.pairs, p.u ≤ 2 ^ 31 - 1) := ⟨ex_rep, ex_wf, by simp [exP], by simp [exP]⟩

end
end AHO.Props
