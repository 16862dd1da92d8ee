import Verif.Proof.ClosureCount
import Verif.Proof.SafeSolver
import Mathlib.Algebra.Group.Defs
/-!
# C65: the function objects of merged limits

`OmegaLimit::merge` wraps the two callbacks into a lambda which holds copies of both.
-/

namespace AHO.Props
open LCT (bind_ok)

/-- the number of limits which were given for the unordered pair `{a, b}` -/
def limitsOn {D : Type} (Omegas : List (OmegaLimit D)) (a b : Nat) : Nat :=
  (Omegas.filter fun o => decide (o.i = a ∧ o.j = b ∨ o.i = b ∧ o.j = a)).length

theorem limitsOn_eq {D : Type} (Os : List (OmegaLimit D)) (a b : Nat) :
    limitsOn Os a b = Os.countP fun o => ProblemSolver.onPair (a, b) o.i o.j := by
  unfold limitsOn
  rw [← List.countP_eq_length_filter]
  congr 1
  funext o
  rw [Bool.eq_iff_iff]
  simp [ProblemSolver.onPair]

section
variable {D : Type} [Add D] [LT D] [DecidableLT D]

/-- C65. The model with function objects computes the limits which the model with functions computes. -/
theorem C65_same_limits (imax : Int) (fuel n : Nat) (Mus : List (MuLimit D)) (Omegas : List (OmegaLimit D)) :
    (ProblemSolver.closureLimits imax fuel n Mus Omegas).map (fun r => r.2.map (·.map (·.limit imax))) =
      (ProblemSolver.processOmegas imax fuel n Mus Omegas >>= fun r =>
        match r with
        | none => .ok none
        | some es => ProblemSolver.mergeLimits imax ⟨n, Mus, es⟩) :=
  ProblemSolver.closureLimits_er imax fuel n Mus Omegas

/-- C65. Every evaluation of a limit which was merged from `k` given limits calls `k` callbacks of the caller, nests `k + 1` or `k + 2` calls, and calls between
`3 k - 1` and `4 k - 1` function objects. The limits of the nodes are the callbacks themselves. -/
theorem C65_evaluation {imax : Int} {fuel n : Nat} {Mus : List (MuLimit D)} {Omegas : List (OmegaLimit D)} {K : Nat} {es : List (ClosureLimit D)}
    (h : ProblemSolver.closureLimits imax fuel n Mus Omegas = .ok (K, some es)) {e : ClosureLimit D} (he : e ∈ es) {x : Int} {c : Calls} {v : D}
    (hx : e.fn.call imax x = .ok (c, v)) :
    (e.j = 0 → c = ⟨1, 1, 1⟩) ∧ (e.j ≠ 0 → 1 ≤ limitsOn Omegas e.i e.j ∧ c.callbacks = limitsOn Omegas e.i e.j ∧
      limitsOn Omegas e.i e.j + 1 ≤ c.depth ∧ c.depth ≤ limitsOn Omegas e.i e.j + 2 ∧
      3 * limitsOn Omegas e.i e.j ≤ c.objects + 1 ∧ c.objects + 1 ≤ 4 * limitsOn Omegas e.i e.j) := by
  obtain ⟨h1, h2, _⟩ := (ProblemSolver.closureLimits_count h).2 es rfl
  have hc : c = e.fn.size := Closure.call_size hx
  have key : e.j < e.i ∧ ProblemSolver.Shape e.fn (limitsOn Omegas e.i e.j) → 1 ≤ limitsOn Omegas e.i e.j ∧ e.j ≠ 0 := by
    rintro ⟨_, s⟩
    have a := s.objects_le
    have b : 0 < limitsOn Omegas e.i e.j := by omega
    refine ⟨b, fun hj => ?_⟩
    obtain ⟨o, ho⟩ := List.exists_mem_of_length_pos b
    obtain ⟨ho, hp⟩ := List.mem_filter.1 ho
    have := h2 o ho
    have := of_decide_eq_true hp
    omega
  have h1 := h1 e he
  rw [← limitsOn_eq] at h1
  rcases h1 with ⟨h0, hs⟩ | hs
  · exact ⟨fun _ => hc.trans hs, fun h => absurd h0 h⟩
  · obtain ⟨k1, k2⟩ := key hs
    obtain ⟨s1, s2, s3, s4, s5⟩ := hs.2
    subst hc
    exact ⟨fun h => absurd h k2, fun _ => ⟨k1, s1, s2, s3, s4, s5⟩⟩

/-- C65. The two loops copy at most `2 p² + 6 p` function objects, if `p` limits were given for pairs; and if there are `k` of them for the same unordered pair, they copy
at least `3 k (k + 1) / 2`. -/
theorem C65_copies {imax : Int} {fuel n : Nat} {Mus : List (MuLimit D)} {Omegas : List (OmegaLimit D)} {K : Nat} {r : Option (List (ClosureLimit D))}
    (h : ProblemSolver.closureLimits imax fuel n Mus Omegas = .ok (K, r)) :
    K ≤ 2 * Omegas.length ^ 2 + 6 * Omegas.length ∧
    ((∃ es, r = some es) → ∀ a b, a ≠ b → 3 * (limitsOn Omegas a b * (limitsOn Omegas a b + 1)) ≤ 2 * K) := by
  obtain ⟨h1, h2⟩ := ProblemSolver.closureLimits_count h
  refine ⟨h1, fun ⟨es, hes⟩ a b hab => ?_⟩
  have h3 := (h2 es hes).2.2
  rcases Nat.lt_or_gt_of_ne hab with hlt | hlt
  · have := h3 b a hlt
    rw [← limitsOn_eq] at this
    have e : limitsOn Omegas a b = limitsOn Omegas b a := by
      unfold limitsOn
      congr 2
      funext o
      congr 1
      exact propext or_comm
    rw [e]; exact this
  · have := h3 a b hlt
    rwa [← limitsOn_eq] at this

end

section
variable {D : Type} [AddMonoid D] [LT D] [DecidableLT D]

/-- two nodes with the only value 0, at no cost -/
def parallelMus : List (MuLimit D) := List.replicate 3 ⟨0, 0, fun _ => .ok 0⟩

/-- the limit `μ₁ - μ₂ ≤ 0` without cost, given `p` times -/
def parallelOmegas (p : Nat) : List (OmegaLimit D) := List.replicate p { l := 0, u := 0, fn := fun _ => .ok 0, i := 1, j := 2 }

theorem ck_zero {imax : Int} (h : 0 ≤ imax) : ck imax 0 = .ok 0 := by
  unfold ck
  rw [if_pos]
  constructor <;> omega

/-- such a limit after the constructor -/
def parallelItem : ClosureLimit D := { l := 0, u := 0, fn := .pre 0 (.user fun _ => .ok 0), i := 1, j := 2 }

theorem parallel_process {imax : Int} (hi : 0 ≤ imax) (fuel p : Nat) :
    ProblemSolver.processClosures (D := D) imax (fuel + 1) 2 parallelMus ((parallelOmegas p).map .ofLimit) =
      .ok (p, some (List.replicate p parallelItem)) := by
  induction p with
  | zero => rfl
  | succ p ih =>
    show ProblemSolver.processClosures imax (fuel + 1) 2 parallelMus (_ :: (parallelOmegas p).map .ofLimit) = _
    rw [ProblemSolver.processClosures, ih]
    have hk := ck_zero hi
    simp [ClosureLimit.ofLimit, ClosureLimit.preProcessing, partitionPoint, parallelMus, listRd, hk, Closure.objects]
    exact ⟨Nat.add_comm 1 p, (List.replicate_succ ..).symm⟩

/-- a limit on the nodes 2 and 1 with the only value 0, which costs nothing -/
def Zeroes (imax : Int) (v : ClosureLimit D) : Prop := v.l = 0 ∧ v.u = 0 ∧ v.i = 2 ∧ v.j = 1 ∧ ∃ c, v.fn.call imax 0 = .ok (c, 0)

/-- such a limit after `reverse` -/
def parallelReversed : ClosureLimit D := { l := 0, u := 0, fn := .rev (.pre 0 (.user fun _ => .ok 0)), i := 2, j := 1 }

omit [LT D] [DecidableLT D] in
theorem parallel_reverse {imax : Int} (hi : 0 ≤ imax) : (if (parallelItem (D := D)).i < (parallelItem (D := D)).j then
    (parallelItem (D := D)).reverse imax else .ok (0, parallelItem)) = .ok (2, parallelReversed) := by
  simp [parallelItem, parallelReversed, ClosureLimit.reverse, ck_zero hi, Closure.objects]

omit [LT D] [DecidableLT D] in
theorem parallel_merge {imax : Int} (hi : 0 ≤ imax) (p : Nat) : ∀ v : ClosureLimit D, Zeroes imax v → ∃ v', Zeroes imax v' ∧ ∃ K,
    ProblemSolver.mergeClosures imax (List.replicate p parallelItem) [((2, 1), v)] = .ok (K, some [((2, 1), v')]) := by
  induction p with
  | zero => exact fun v hv => ⟨v, hv, 0, rfl⟩
  | succ p ih =>
    rintro v ⟨h1, h2, h3, h4, c, h5⟩
    rw [List.replicate_succ, ProblemSolver.mergeClosures_cons, parallel_reverse hi]
    obtain ⟨v', hv', K, h⟩ := ih { l := 0, u := 0, fn := .sum v.fn (.rev (.pre 0 (.user fun _ => .ok 0))), i := 2, j := 1 }
      ⟨rfl, rfl, rfl, rfl, by simp [Closure.call, h5, ck_zero hi]⟩
    refine ⟨v', hv', ?_⟩
    simp [parallelReversed, ProblemSolver.closureFind, ClosureLimit.merge, h1, h2, h3, h4, ProblemSolver.closureSet, h]

/-- C65. The nesting is not bounded: two nodes suffice, and the limit is evaluated at the only point of its range. A stack which has room for `d` nested calls
is too small for `d` limits on the same pair of nodes, whatever `d` is. -/
theorem C65_nesting {imax : Int} (hi : 0 ≤ imax) (fuel p : Nat) : ∃ K es, ∃ e ∈ es, ∃ c,
    ProblemSolver.closureLimits (D := D) imax (fuel + 1) 2 parallelMus (parallelOmegas (p + 1)) = .ok (K, some es) ∧ e.l = 0 ∧ e.u = 0 ∧
      e.fn.call imax 0 = .ok (c, 0) ∧ p + 1 < c.depth := by
  have hk := ck_zero hi
  obtain ⟨v, hv, K, h⟩ := parallel_merge (D := D) hi p parallelReversed ⟨rfl, rfl, rfl, rfl, by simp [parallelReversed, Closure.call, hk]⟩
  obtain ⟨h1, h2, h3, h4, c, h5⟩ := hv
  have hm : ∃ K, ProblemSolver.mergeClosures (D := D) imax
      (List.replicate (p + 1) parallelItem) [] = .ok (K, some [((2, 1), v)]) := by
    rw [List.replicate_succ, ProblemSolver.mergeClosures_cons, parallel_reverse hi]
    have : ProblemSolver.closureSet [] ((parallelReversed (D := D)).i, (parallelReversed (D := D)).j) parallelReversed = [((2, 1), parallelReversed (D := D))] := rfl
    simp [ProblemSolver.closureFind, this, h]
  obtain ⟨K', hm⟩ := hm
  have hu : ∃ mus, ProblemSolver.musClosures (D := D) parallelMus 1 2 = .ok mus := ⟨_, rfl⟩
  obtain ⟨mus, hu⟩ := hu
  have hl : ProblemSolver.closureLimits (D := D) imax (fuel + 1) 2 parallelMus (parallelOmegas (p + 1)) = .ok (p + 1 + K', some (v :: mus)) := by
    unfold ProblemSolver.closureLimits
    simp [parallel_process hi, hm, hu]
  refine ⟨_, _, v, List.mem_cons_self, c, hl, h1, h2, h5, ?_⟩
  have := (C65_evaluation hl List.mem_cons_self h5).2 (by rw [h4]; decide)
  have hn : limitsOn (D := D) (parallelOmegas (p + 1)) v.i v.j = p + 1 := by
    rw [h3, h4]
    unfold limitsOn parallelOmegas
    rw [List.filter_eq_self.2]
    · simp
    · intro o ho
      rw [List.eq_of_mem_replicate ho]
      rfl
  omega

end

/-- costs of both directions on the nodes 3 and 1, and one on 2 and 1 -/
def closureOmegas : List (OmegaLimit Int) :=
  [{ l := -2, u := 2, fn := fun x => .ok (x * x), i := 3, j := 1 }, { l := -2, u := 2, fn := fun x => .ok (2 * x), i := 1, j := 3 },
   { l := -2, u := 2, fn := fun x => .ok (3 * x), i := 2, j := 1 }]

/-- nodes for `closureOmegas` -/
def closureMus : List (MuLimit Int) := List.replicate 4 ⟨-1, 1, fun x => .ok (x * x)⟩

/-- The hypotheses of the theorems are met: two limits are merged into one for the nodes 3 and 1. At 1 it is `1 + 2 * max (-2) (-1) = -1`. -/
example : ∃ K es, ProblemSolver.closureLimits 100 10 3 closureMus closureOmegas = .ok (K, some es) ∧ K = 20 ∧
    es.map (fun e => (e.i, e.j)) = [(2, 1), (3, 1), (1, 0), (2, 0), (3, 0)] ∧
    es.map (fun e => (e.fn.call 100 1).toOption) =
      [some (⟨2, 1, 2⟩, 3), some (⟨6, 2, 4⟩, -1), some (⟨1, 1, 1⟩, 1), some (⟨1, 1, 1⟩, 1), some (⟨1, 1, 1⟩, 1)] ∧
    limitsOn closureOmegas 3 1 = 2 :=
  ⟨_, _, rfl, by decide +kernel⟩

end AHO.Props
