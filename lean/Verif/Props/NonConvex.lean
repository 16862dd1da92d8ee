import Verif.Proof.Drift
import Verif.Proof.Transform
import Verif.Props.Width
import Mathlib.Algebra.Order.Ring.Rat
/-!
# Costs which are not convex

The program does not check that the costs are convex. Here is what happens if they are not; the arithmetic is exact.
-/

namespace AHO.Props
open Spec

/-! ### A wrong value -/

/-- one variable in `[-1, 1]` with the costs 1, 2, 0 -/
def humpP : Problem ℚ := ⟨1, fun _ => -1, fun _ => 1, fun _ x => if x = -1 then 1 else if x = 0 then 2 else 0, []⟩

/-- `humpP` as input for the solver -/
def humpMus : List (MuLimit ℚ) :=
  [⟨0, 0, fun _ => .error .callback⟩, ⟨-1, 1, fun x => .ok (if x = -1 then 1 else if x = 0 then 2 else 0)⟩]

/-- C60. Without convexity the result can be a number which is not the cost of any assignment: the costs are 1, 2 and 0, and
the result is 1/2. -/
theorem C60_wrong_value : Represents humpP humpMus [] ∧ WellFormed humpP ∧ Capacity (2 ^ 31 - 1) humpP ∧ IsOptimum humpP 0 ∧
    Returns (fun fuel => ProblemSolver.run (2 ^ 31 - 1) fuel humpP.n humpMus []) (some (1 / 2)) ∧
    (∀ μ ω, Feasible humpP μ ω → cost humpP μ ω ≠ 1 / 2) := by
  have hb : Nat.clog 2 4 = 2 := by decide +kernel
  have hc : ∀ μ ω, cost humpP μ ω = if μ 1 = -1 then 1 else if μ 1 = 0 then 2 else 0 := by
    intro μ ω
    have h0 : ∑ k : Fin humpP.pairs.length, humpP.pairs[k].B (ω k) = 0 := Finset.sum_eq_zero fun k _ => k.elim0
    rw [cost, h0]
    simp [humpP]
  refine ⟨⟨rfl, ?_, .nil⟩, ?_, ⟨?_, 2, ?_, ?_, ?_⟩, ?_,
    returns_of_eval 60 (by decide +kernel) fun _ _ h => ProblemSolver.run_le h _ _ _, ?_⟩
  · intro i h h1
    have h3 : i < 2 := h
    interval_cases i
    exact ⟨rfl, rfl, fun x a b => rfl⟩
  · constructor <;> simp [humpP]
  · constructor <;> simp [humpP]
  · constructor <;> simp [humpP]
  · constructor <;> simp [humpP]
  · simp [humpP, bitCeil, hb]
  · refine ⟨⟨fun _ => 1, fun _ => 0, ⟨by simp [humpP], by simp [humpP]⟩, ?_⟩, ?_⟩
    · rw [hc]; norm_num
    · intro μ ω h
      rw [hc]
      split_ifs <;> norm_num
  · intro μ ω h
    rw [hc]
    split_ifs <;> norm_num

/-! ### No value although there is one -/

/-- `μ₁` in `[2, 4]` with the costs 2, 4, 1; `μ₂` in `[-2, 0]` at no cost; a pair with `ω` in `[1, 2]` at cost `ω` -/
def lostP : Problem ℚ where
  n := 2
  lo i := if i = 1 then 2 else -2
  hi i := if i = 1 then 4 else 0
  F i x := if i = 1 then (if x = 2 then 2 else if x = 3 then 4 else 1) else 0
  pairs := [⟨1, 2, 1, 2, fun x => x⟩]

/-- `Mus` for `lostP` -/
def lostMus : List (MuLimit ℚ) :=
  [⟨0, 0, fun _ => .error .callback⟩, ⟨2, 4, fun x => .ok (if x = 2 then 2 else if x = 3 then 4 else 1)⟩,
    ⟨-2, 0, fun _ => .ok 0⟩]

/-- `Omegas` for `lostP` -/
def lostOmegas : List (OmegaLimit ℚ) := [⟨⟨1, 2, fun x => .ok x⟩, 1, 2⟩]

/-- C60. Without convexity the program can return nothing although the constraints can be met. -/
theorem C60_no_value : Represents lostP lostMus lostOmegas ∧ WellFormed lostP ∧ Capacity (2 ^ 31 - 1) lostP ∧ Solvable lostP ∧
    Returns (fun fuel => ProblemSolver.run (2 ^ 31 - 1) fuel lostP.n lostMus lostOmegas) none := by
  have hb : Nat.clog 2 18 = 5 := by decide +kernel
  refine ⟨⟨rfl, ?_, .cons ⟨rfl, rfl, rfl, rfl, fun x a b => rfl⟩ .nil⟩, ?_, ⟨?_, 6, ?_, ?_, ?_⟩,
    ⟨fun i => if i = 1 then 2 else 0, fun _ => 2, ?_, ?_⟩,
    returns_of_eval 60 (by decide +kernel) fun _ _ h => ProblemSolver.run_le h _ _ _⟩
  · intro i h h1
    have h3 : i < 3 := h
    interval_cases i <;> exact ⟨rfl, rfl, fun x a b => rfl⟩
  · constructor
    · intro i _ _; simp only [lostP]; split <;> decide
    all_goals simp [lostP]
  · constructor <;> simp [lostP]
  · constructor
    · intro i _ _; simp only [lostP]; split <;> decide
    · intro i _ _; simp only [lostP]; split <;> decide
    all_goals simp [lostP]
  · constructor
    · intro i _ _; simp only [lostP]; split <;> decide
    · simp [lostP]
  · simp [lostP, bitCeil, hb]
  · intro i _ h2
    have h2 : i ≤ 2 := h2
    simp only [lostP]
    split <;> decide
  · intro k hk
    have hk : k < 1 := hk
    interval_cases k
    simp [lostP]

/-! ### A loop without end -/

/-- `μ₁` in `[-1, 1]` with the costs 0, 2, 0; `μ₂` can only be -2, at no cost -/
def cycleP : Problem ℚ where
  n := 2
  lo i := if i = 1 then -1 else -2
  hi i := if i = 1 then 1 else -2
  F i x := if i = 1 then (if x = 0 then 2 else 0) else 0
  pairs := []

/-- `Mus` for `cycleP` -/
def cycleMus : List (MuLimit ℚ) :=
  [⟨0, 0, fun _ => .error .callback⟩, ⟨-1, 1, fun x => .ok (if x = 0 then 2 else 0)⟩, ⟨-2, -2, fun _ => .ok 0⟩]

/-- the limits of `cycleP` -/
def cycleLimits : List (OmegaLimit ℚ) :=
  [⟨⟨-1, 1, fun x => .ok (if x = 0 then 2 else 0)⟩, 1, 0⟩, ⟨⟨-2, -2, fun _ => .ok 0⟩, 2, 0⟩]

/-- node 0 of the link-cut tree is its own father and child -/
def Stuck (h : Heap ℚ) : Prop :=
  0 < h.size ∧ (h.get 0).fa = some 0 ∧ (((h.get 0).ch0 = some 0 ∧ (h.get 0).ch1 = none) ∨ ((h.get 0).ch0 = none ∧ (h.get 0).ch1 = some 0))

instance (h : Heap ℚ) : Decidable (Stuck h) := inferInstanceAs (Decidable (_ ∧ _ ∧ _))

/-- A rotation of the node does not change that. -/
theorem Stuck.rot {h : Heap ℚ} (hs : Stuck h) : ∃ h', LCT.rot h 0 = .ok h' ∧ Stuck h' := by
  obtain ⟨h0, hf, hc⟩ := hs
  obtain ⟨sz, get⟩ := h
  dsimp only at *
  generalize hn : get 0 = n at *
  obtain ⟨fa, c0, c1, mv, mp, v, ad⟩ := n
  dsimp only at *
  subst hf
  rcases hc with ⟨rfl, rfl⟩ | ⟨rfl, rfl⟩
  · refine ⟨_, by simp [LCT.rot, LCT.dir, LCT.deref, Vec.rd, h0, hn, LCT.setc, LCT.LNode.ch, LCT.LNode.setCh, Vec.wr, Vec.set, ok_bind,
      LCT.pushUp]; rfl, ?_⟩
    simp [Stuck, h0]
  · refine ⟨_, by simp [LCT.rot, LCT.dir, LCT.deref, Vec.rd, h0, hn, LCT.setc, LCT.LNode.ch, LCT.LNode.setCh, Vec.wr, Vec.set, ok_bind,
      LCT.pushUp]; rfl, ?_⟩
    simp [Stuck, h0]

theorem Stuck.not_root {h : Heap ℚ} (hs : Stuck h) : LCT.isRoot h 0 = .ok false := by
  obtain ⟨h0, hf, hc⟩ := hs
  rcases hc with ⟨a, b⟩ | ⟨a, b⟩ <;> simp [LCT.isRoot, Vec.rd, h0, hf, a, b, ok_bind]

theorem Stuck.step {h : Heap ℚ} (hs : Stuck h) : ∃ h', LCT.splayStep h 0 = .ok h' ∧ Stuck h' := by
  obtain ⟨h1, e1, s1⟩ := hs.rot
  obtain ⟨h2, e2, s2⟩ := s1.rot
  refine ⟨h2, ?_, s2⟩
  have hr := hs.not_root
  obtain ⟨h0, hf, hc⟩ := hs
  have hd : ∃ d, LCT.dir h 0 = .ok d := by
    refine ⟨_, by simp [LCT.dir, Vec.rd, h0, hf, LCT.deref, ok_bind]; rfl⟩
  obtain ⟨d, hd⟩ := hd
  simp [LCT.splayStep, Vec.rd, h0, hf, LCT.deref, ok_bind, hr, hd, e1, e2]

/-- the loop of `splay` never ends -/
theorem Stuck.loop : ∀ (fuel : Nat) {h : Heap ℚ}, Stuck h →
    whileLoop (fun h => do let r ← LCT.isRoot h 0; .ok (!r)) (fun h => LCT.splayStep h 0) fuel h = .error .fuel := by
  intro fuel
  induction fuel with
  | zero => intro h _; rfl
  | succ fuel ih =>
    intro h hs
    obtain ⟨h', e, hs'⟩ := hs.step
    unfold whileLoop
    simp [hs.not_root, ok_bind, e, ih hs']

/-- The first steps of the program: five rounds of the loop of `Flow::refine`; then node 0 is linked below node 1, which is linked below
node 0; then three rounds of the loop of `access`, the last one up to the first iteration in `splay`. -/
def cycleCheck : Res Bool := do
  let a ← ProblemSolver.calc' 144 60 cycleLimits
  let s ← Flow.mk' 144 60 2 a.2.1 a.2.2 cycleLimits
  let s1 ← Flow.pushAllAdmissibleEdge 144 s.initialization
  let s2 ← Flow.rounds 144 60 5 s1
  let p ← s2.uq.front
  let k ← s2.currentEdge.rd p
  let g ← s2.G.rd p
  let e ← listRd g k
  let x ← Flow.q 144 s2 e
  let s3 ← Flow.link 144 60 s2 p
  let h1 ← LCT.splay 60 s3.nodes 0
  let h2 ← LCT.setc h1 0 none true
  let h3 ← LCT.pushUp h2 0
  let n3 ← h3.rd 0
  let h4 ← LCT.splay 60 h3 1
  let h5 ← LCT.setc h4 1 (some 0) true
  let h6 ← LCT.pushUp h5 1
  let n6 ← h6.rd 1
  let h7 ← LCT.pushDownFromRoot 60 h6 0
  let r7 ← LCT.isRoot h7 0
  let h8 ← LCT.splayStep h7 0
  .ok (decide (2 ≤ s.epsilon) && !s2.uq.empty && decide (p = 0) && decide (k < g.length) && decide (0 < x) &&
    decide (n3.fa = some 1) && decide (n6.fa = some 0) && !r7 && decide (Stuck h8))

theorem cycleCheck_true : cycleCheck = .ok true := by decide +kernel

theorem le_ok {α : Type} {x y : Res α} {a : α} (h : Le x y) (hx : x = .ok a) : y = .ok a := by
  rcases h with h | h
  · rw [hx] at h; cases h
  · rw [← h, hx]

/-- `cycleP` with an `int` that suffices for the instance -/
theorem cycle_run (fuel : Nat) : ProblemSolver.run 144 fuel 2 cycleMus [] = .error .fuel := by
  suffices h : ∀ g, ProblemSolver.run 144 (g + 70) 2 cycleMus [] = .error .fuel by
    rcases ProblemSolver.run_le (imax := 144) (Nat.le_add_right fuel 70) 2 cycleMus [] with h' | h'
    · exact h'
    · rw [h', h]
  intro g
  have hle : 60 ≤ g + 70 := by omega
  obtain ⟨a, ha, h⟩ := bind_eq_ok.1 cycleCheck_true
  obtain ⟨s, hs, h⟩ := bind_eq_ok.1 h
  obtain ⟨s1, hs1, h⟩ := bind_eq_ok.1 h
  obtain ⟨s2, hs2, h⟩ := bind_eq_ok.1 h
  obtain ⟨p, hp, h⟩ := bind_eq_ok.1 h
  obtain ⟨k, hk, h⟩ := bind_eq_ok.1 h
  obtain ⟨gl, hg, h⟩ := bind_eq_ok.1 h
  obtain ⟨e, he, h⟩ := bind_eq_ok.1 h
  obtain ⟨x, hx, h⟩ := bind_eq_ok.1 h
  obtain ⟨s3, hs3, h⟩ := bind_eq_ok.1 h
  obtain ⟨h1, e1, h⟩ := bind_eq_ok.1 h
  obtain ⟨h2, e2, h⟩ := bind_eq_ok.1 h
  obtain ⟨h3, e3, h⟩ := bind_eq_ok.1 h
  obtain ⟨n3, e3', h⟩ := bind_eq_ok.1 h
  obtain ⟨h4, e4, h⟩ := bind_eq_ok.1 h
  obtain ⟨h5, e5, h⟩ := bind_eq_ok.1 h
  obtain ⟨h6, e6, h⟩ := bind_eq_ok.1 h
  obtain ⟨n6, e6', h⟩ := bind_eq_ok.1 h
  obtain ⟨h7, e7, h⟩ := bind_eq_ok.1 h
  obtain ⟨r7, e7', h⟩ := bind_eq_ok.1 h
  obtain ⟨h8, e8, h⟩ := bind_eq_ok.1 h
  simp only [Except.ok.injEq, Bool.and_eq_true, decide_eq_true_eq, Bool.not_eq_true'] at h
  obtain ⟨⟨⟨⟨⟨⟨⟨⟨heps, hq⟩, hp0⟩, hkl⟩, hx0⟩, hn3⟩, hn6⟩, hr7⟩, hst⟩ := h
  subst hp0 hr7
  -- with more fuel
  have ha := le_ok (ProblemSolver.calcLoop_le (imax := 144) hle cycleLimits (0, 1, 0)) ha
  have hs := le_ok (Flow.mk'_le (imax := 144) hle 2 a.2.1 a.2.2 cycleLimits) hs
  have hs2 := (Flow.rounds_sound hs2).mono hle
  have hs3 := le_ok (Flow.link_le (imax := 144) hle s2 0) hs3
  have e1 := le_ok (LCT.splay_le hle s3.nodes 0) e1
  have e4 := le_ok (LCT.splay_le hle h3 1) e4
  have e7 := le_ok (LCT.pushDownFromRoot_le hle h6 0) e7
  -- the loop in `splay`
  have hsplay : LCT.splay (g + 70) h6 0 = .error .fuel := by
    unfold LCT.splay
    rw [e7, ok_bind]
    conv_lhs => rw [show g + 70 = (g + 69) + 1 from rfl]
    unfold whileLoop
    rw [e7', ok_bind]
    simp [ok_bind, e8, hst.loop]
  have hacc : LCT.access (g + 70) s3.nodes 0 = .error .fuel := by
    have : LCT.accessLoop (g + 70) (g + 70) s3.nodes (some 0) none = .error .fuel := by
      conv_lhs => rw [show LCT.accessLoop (g + 70) (g + 70) s3.nodes (some 0) none =
        LCT.accessLoop (g + 70) (((g + 67) + 1) + 1 + 1) s3.nodes (some 0) none from rfl]
      unfold LCT.accessLoop
      simp only [e1, e2, e3, e3', ok_bind, hn3]
      unfold LCT.accessLoop
      simp only [e4, e5, e6, e6', ok_bind, hn6]
      unfold LCT.accessLoop
      simp only [hsplay]
      rfl
    unfold LCT.access
    rw [this]
    rfl
  have hstep : Flow.refineStep 144 (g + 70) s2 = .error .fuel := by
    have hch : Flow.choiceOperator 144 (g + 70) s2 0 = .error .fuel := by
      unfold Flow.choiceOperator
      conv_lhs => rw [show Flow.choiceLoop 144 (g + 70) 0 (g + 70) s2 = Flow.choiceLoop 144 (g + 70) 0 ((g + 69) + 1) s2 from rfl]
      unfold Flow.choiceLoop
      rw [hk, ok_bind, hg, ok_bind, if_pos hkl, he, ok_bind, hx, ok_bind, if_pos hx0, hs3, ok_bind]
      unfold Flow.send LCT.findRoot
      rw [hacc]
      rfl
    unfold Flow.refineStep
    rw [hp, ok_bind, hch]
    rfl
  have hloop : Flow.refineLoop 144 (g + 70) (g + 70) s1 = .error .fuel := by
    have := hs2.loop (g + 65)
    rw [show g + 65 + 5 = g + 70 from rfl] at this
    rw [this, show g + 65 = (g + 64) + 1 from rfl, Flow.refineLoop_succ hq, hstep]
    rfl
  have hphase : Flow.phase 144 (g + 70) s = .error .fuel := by
    unfold Flow.phase
    dsimp only
    rw [hs1, ok_bind]
    unfold Flow.refine
    unfold Flow.refineLoop at hloop
    rw [hloop]
    rfl
  have hmin : Flow.minCost 144 (g + 70) s = .error .fuel := by
    unfold Flow.minCost Flow.phases
    have : whileLoop (fun s : Flow ℚ => .ok (decide (s.epsilon ≥ 2))) (Flow.phase 144 (g + 70)) (g + 70) s = .error .fuel := by
      conv_lhs => rw [show whileLoop (fun s : Flow ℚ => .ok (decide (s.epsilon ≥ 2))) (Flow.phase 144 (g + 70)) (g + 70) s =
        whileLoop (fun s : Flow ℚ => .ok (decide (s.epsilon ≥ 2))) (Flow.phase 144 (g + 70)) ((g + 69) + 1) s from rfl]
      unfold whileLoop
      rw [hphase]
      simp [heps, ok_bind]
    rw [this]
    rfl
  have m1 : ProblemSolver.mk' 144 (g + 70) 2 cycleMus [] = .ok ⟨2, cycleMus, []⟩ := by
    have : ProblemSolver.checkMus cycleMus 1 2 = .ok true := by decide +kernel
    unfold ProblemSolver.mk'
    rw [if_neg (by decide), this]
    rfl
  have m2 : ProblemSolver.mergeLimits 144 ⟨2, cycleMus, []⟩ = .ok (some cycleLimits) := rfl
  unfold ProblemSolver.run
  rw [m1, ok_bind]
  unfold ProblemSolver.solve
  rw [if_neg (by decide), m2, ok_bind]
  dsimp only
  obtain ⟨vcm, M, U⟩ := a
  have ha' : ProblemSolver.calc' 144 (g + 70) cycleLimits = .ok (vcm, M, U) := ha
  dsimp only at hs
  rw [ha', ok_bind]
  dsimp only
  rw [hs, ok_bind, hmin]
  rfl

/-- C60. Without convexity the program need not end: two nodes of the link-cut tree become father and child of each other, and the loop of
`splay` rotates a node around itself forever. The instance has two variables, one of which can only be -2, and no pairs; the
costs of the other are 0, 2, 0. An `int` of maximal value 144 has the documented capacity, and a larger one makes no difference. -/
theorem C60_never_returns : Represents cycleP cycleMus [] ∧ WellFormed cycleP ∧ Capacity 144 cycleP ∧ Solvable cycleP ∧
    ∀ imax, 144 ≤ imax → ∀ fuel, ProblemSolver.run imax fuel cycleP.n cycleMus [] = .error .fuel := by
  have hb : Nat.clog 2 6 = 3 := by decide +kernel
  refine ⟨⟨rfl, ?_, .nil⟩, ?_, ⟨?_, 2, ?_, ?_, ?_⟩, ⟨fun i => if i = 1 then -1 else -2, fun _ => 0, ?_, ?_⟩, ?_⟩
  · intro i h h1
    have h3 : i < 3 := h
    interval_cases i <;> exact ⟨rfl, rfl, fun x a b => rfl⟩
  · constructor
    · intro i _ _; simp only [cycleP]; split <;> decide
    all_goals simp [cycleP]
  · constructor <;> simp [cycleP]
  · constructor
    · intro i _ _; simp only [cycleP]; split <;> decide
    · intro i _ _; simp only [cycleP]; split <;> decide
    all_goals simp [cycleP]
  · constructor
    · intro i _ _; simp only [cycleP]; split <;> decide
    · simp [cycleP]
  · simp [cycleP, bitCeil, hb]
  · intro i _ _
    simp only [cycleP]
    split <;> decide
  · intro k hk; exact absurd hk (by simp [cycleP])
  · intro imax hi fuel
    have h := cycle_run fuel
    have := C39_wider_int hi fuel 2 cycleMus [] (by rw [h]; simp)
    exact this.trans h

end AHO.Props
