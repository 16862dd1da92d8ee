import Verif.Proof.Drift
import Verif.Props.Double
import Mathlib.Algebra.Order.Monoid.WithTop
/-!
# C62: an infinite cost

A caller may try to forbid a value by the cost `+inf`. A cost of `+inf` is a legal value of `double`, and with it a convex cost stays
convex. The program does not end: the first push sends an infinite amount, the next one subtracts infinities, and the imbalance which
is not a number is never 0.
-/

namespace AHO
open Format

namespace Flow
variable {imax : Int}

/-- Node 1 is the only one in the queue, its imbalance and the flow of its only arc, to node 0, are not numbers. -/
structure NanFront (s : Flow (Flt binary64)) (v : Int) : Prop where
  n : s.n = 1
  eps : s.epsilon = 8
  queue : s.uq.queue = [1]
  imb : s.imbalances.rd 1 = .ok ⟨.nan⟩
  ce : s.currentEdge.rd 1 = .ok 0
  G : s.G.rd 1 = .ok [0]
  flow : s.flows.rd 0 = .ok ⟨.nan⟩
  fa : s.fa.rd 0 = .ok none
  sc0 : s.scaling.rd 0 = .ok 0
  sc1 : s.scaling.rd 1 = .ok v
  edge : ∃ E, s.edges.rd 0 = .ok E ∧ E.i = 1 ∧ E.j = 0 ∧ ∀ t, E.l ≤ t → t ≤ E.u → ∃ a, E.fn t = .ok a

theorem nan_not_pos : ¬ (0 : Flt binary64) < ⟨.nan⟩ := by decide +kernel

theorem sub_nan (x : Flt binary64) : x - ⟨.nan⟩ = ⟨.nan⟩ := by
  obtain ⟨x⟩ := x
  cases x <;> rfl

theorem NanFront.q {s : Flow (Flt binary64)} {v : Int} (h : NanFront s v) (hi : 4 ≤ imax) :
    q imax s 0 = .error .overflow ∨ ∃ x, q imax s 0 = .ok x ∧ ¬ 0 < x := by
  obtain ⟨E, hE, hEi, hEj, hfn⟩ := h.edge
  unfold Flow.q
  rw [hE, ok_bind, hEi, hEj, h.sc1, ok_bind, h.sc0, ok_bind]
  unfold ck
  split
  · rw [ok_bind, h.n]
    have hd : toInt imax (2 * (1 + 1)) = .ok 4 := by unfold toInt ck; rw [if_pos]; rfl; constructor <;> push_cast <;> omega
    rw [hd, ok_bind]
    unfold ceilDiv
    rw [if_neg (by decide)]
    unfold ck
    generalize (v - 0).tdiv 4 + (if (v - 0).tmod 4 > 0 then 1 else 0) = c
    split
    · rw [ok_bind]
      split
      · rw [ok_bind]
        split
        · rw [ok_bind, h.flow, ok_bind]
          split
          · exact .inr ⟨_, rfl, by rw [sub_nan]; exact nan_not_pos⟩
          · split
            · exact .inr ⟨_, rfl, by decide +kernel⟩
            · rename_i h1 h2
              obtain ⟨a, ha⟩ := hfn _ (by omega) (not_lt.1 h1)
              obtain ⟨b, hb⟩ := hfn _ (not_lt.1 h2) (by omega)
              rw [ha, ok_bind, hb, ok_bind]
              refine .inr ⟨_, rfl, ?_⟩
              rw [sub_nan]
              decide +kernel
        · exact .inl rfl
      · exact .inl rfl
    · exact .inl rfl
  · exact .inl rfl

/-- a round raises the potential, or overflows -/
theorem NanFront.step {s : Flow (Flt binary64)} {v : Int} (h : NanFront s v) (hi : 4 ≤ imax) (f : Nat) :
    refineStep imax (f + 2) s = .error .overflow ∨
    ∃ s', refineStep imax (f + 2) s = .ok s' ∧ NanFront s' (v + 4) ∧ v + 4 ≤ imax := by
  have hfront : s.uq.front = .ok 1 := by unfold UQ.front; rw [h.queue]
  obtain ⟨E, hE, hEi, hEj, hfn⟩ := h.edge
  unfold refineStep choiceOperator
  rw [hfront, ok_bind]
  unfold choiceLoop
  rw [h.ce, ok_bind, h.G, ok_bind, if_pos (by decide)]
  have : listRd [0] 0 = .ok 0 := rfl
  rw [this, ok_bind]
  rcases h.q hi with hq | ⟨x, hq, hx⟩
  · left; rw [hq]; rfl
  rw [hq, ok_bind, if_neg hx]
  obtain ⟨ce, hce, hce1⟩ : ∃ ce, s.currentEdge.wr 1 (0 + 1) = .ok ce ∧ 1 < ce.size ∧ ce.get 1 = 1 := by
    have := h.ce
    unfold Vec.rd at this
    split at this
    · rename_i hl
      exact ⟨_, if_pos hl, hl, by simp [Vec.set]⟩
    · cases this
  rw [hce, ok_bind]
  have hce2 : ce.rd 1 = .ok 1 := by unfold Vec.rd; rw [if_pos hce1.1, hce1.2]
  unfold choiceLoop
  dsimp only
  rw [hce2, ok_bind, h.G, ok_bind, if_neg (by decide)]
  unfold updateScaling
  dsimp only
  rw [h.G, ok_bind]
  unfold cutChildren
  dsimp only
  rw [hE, ok_bind, hEj, h.fa, ok_bind, if_neg (by simp)]
  unfold cutChildren
  simp only [ok_bind]
  rw [h.sc1, ok_bind, h.eps]
  unfold ck
  split
  · rename_i hc
    rw [ok_bind]
    have e4 : v + Int.tdiv 8 2 = v + 4 := rfl
    rw [e4] at hc ⊢
    obtain ⟨sc, hsc, hsz, hg⟩ : ∃ sc, s.scaling.wr 1 (v + 4) = .ok sc ∧ sc.size = s.scaling.size ∧
        sc.get = fun k => if k = 1 then v + 4 else s.scaling.get k := by
      have := h.sc1
      unfold Vec.rd at this
      split at this
      · rename_i hl
        refine ⟨_, if_pos hl, rfl, ?_⟩
        funext k; simp [Vec.set]
      · cases this
    rw [hsc, ok_bind]
    obtain ⟨ce', hce', hce3⟩ : ∃ ce', ce.wr 1 0 = .ok ce' ∧ ce'.rd 1 = .ok 0 := by
      refine ⟨_, if_pos hce1.1, ?_⟩
      unfold Vec.rd; simp [Vec.set, hce1.1]
    rw [hce', ok_bind, ok_bind]
    have hfront' : s.uq.front = .ok 1 := hfront
    dsimp only
    rw [hfront', ok_bind, h.imb, ok_bind, if_neg (by decide +kernel)]
    refine .inr ⟨_, rfl, ⟨h.n, rfl, h.queue, h.imb, hce3, h.G, h.flow, h.fa, ?_, ?_, h.edge⟩, hc.2⟩
    · have := h.sc0
      unfold Vec.rd at this ⊢
      rw [hsz, hg]; exact this
    · have := h.sc1
      unfold Vec.rd at this ⊢
      rw [hsz, hg]
      split
      · rfl
      · rename_i hl; rw [if_neg hl] at this; cases this
  · exact .inl rfl

theorem NanFront.loop {s : Flow (Flt binary64)} {v : Int} (h : NanFront s v) (hi : 4 ≤ imax) (f : Nat) :
    ∀ m g : Nat, imax < v + 4 * (m + 1) → refineLoop imax (f + 2) (g + m + 1) s = .error .overflow := by
  intro m
  induction m generalizing s v with
  | zero =>
    intro g hm
    have he : s.uq.empty = false := by unfold UQ.empty; rw [h.queue]; rfl
    rw [refineLoop_succ he]
    rcases h.step hi f with h | ⟨s', _, _, hv⟩
    · rw [h]; rfl
    · exfalso; push_cast at hm; omega
  | succ m ih =>
    intro g hm
    have he : s.uq.empty = false := by unfold UQ.empty; rw [h.queue]; rfl
    rw [refineLoop_succ he]
    rcases h.step hi f with h | ⟨s', h1, h2, hv⟩
    · rw [h]; rfl
    · rw [h1, ok_bind]
      exact ih h2 g (by push_cast at hm ⊢; omega)

theorem NanFront.wid {s s' : Flow (Flt binary64)} {v : Int} (h : NanFront s v) (hw : WF s s') : NanFront s' v := by
  refine hw.elim (P := fun s' => NanFront s' v) fun E hE => ?_
  refine ⟨h.n, h.eps, h.queue, h.imb, h.ce, h.G, h.flow, h.fa, h.sc0, h.sc1, ?_⟩
  obtain ⟨e, he, h1, h2, h3⟩ := h.edge
  have := hE.rd 0
  rw [he] at this
  generalize hy : E.rd 0 = y at this
  cases this with
  | @ok _ e' hw =>
    refine ⟨e', rfl, hw.i.trans h1, hw.j.trans h2, fun t a b => ?_⟩
    obtain ⟨c, hc⟩ := h3 t (hw.l ▸ a) (hw.u ▸ b)
    have := hw.fn t
    rw [hc] at this
    generalize hz : e'.fn t = z at this
    cases this with
    | ok e => exact ⟨_, rfl⟩

end Flow

namespace Props
open Spec

/-- One variable with the range `0 … 2`. The value 0 is forbidden, the others cost what they are. -/
def infiniteP : Problem (WithTop ℚ) where
  n := 1
  lo _ := 0
  hi _ := 2
  F _ x := if x = 0 then ⊤ else ((x : ℚ) : WithTop ℚ)
  pairs := []

/-- the `double` of a cost: `⊤` is `+inf` -/
def toDouble : WithTop ℚ → Flt binary64
  | ⊤ => ⟨.pinf⟩
  | (x : ℚ) => Flt.ofRat _ x

/-- `Mus` for `infiniteP` -/
def infiniteMus : List (MuLimit (Flt binary64)) :=
  [⟨0, 0, fun _ => .error .callback⟩, ⟨0, 2, fun x => .ok (if x = 0 then ⟨.pinf⟩ else Flt.ofRat _ x)⟩]

theorem infinite_rep : Represents (infiniteP.mapCosts toDouble) infiniteMus [] := by
  refine ⟨rfl, ?_, .nil⟩
  intro i h h1
  have h3 : i < 2 := h
  interval_cases i
  refine ⟨rfl, rfl, fun x a b => ?_⟩
  show Except.ok _ = Except.ok _
  congr 1
  show (if x = 0 then _ else _) = toDouble (if x = 0 then ⊤ else _)
  split <;> rfl

/-- the limits of `infiniteP` -/
def infiniteLimits : List (OmegaLimit (Flt binary64)) :=
  [⟨⟨0, 2, fun x => .ok (if x = 0 then ⟨.pinf⟩ else Flt.ofRat _ x)⟩, 1, 0⟩]

/-- The program reaches a state with an imbalance that is not a number after three rounds of the loop of `Flow::refine`. -/
def infiniteCheck : Res Bool := do
  let a ← ProblemSolver.calc' 1000 60 infiniteLimits
  let s ← Flow.mk' 1000 60 1 a.2.1 a.2.2 infiniteLimits
  let s1 ← Flow.pushAllAdmissibleEdge 1000 s.initialization
  let t ← Flow.rounds 1000 60 3 s1
  let imb ← t.imbalances.rd 1
  let ce ← t.currentEdge.rd 1
  let g ← t.G.rd 1
  let f ← t.flows.rd 0
  let fa ← t.fa.rd 0
  let sc0 ← t.scaling.rd 0
  let sc1 ← t.scaling.rd 1
  let e ← t.edges.rd 0
  let _ ← e.fn 0
  let _ ← e.fn 1
  let _ ← e.fn 2
  .ok (decide (2 ≤ s.epsilon) && decide (t.n = 1) && decide (t.epsilon = 8) && decide (t.uq.queue = [1]) && decide (imb = ⟨.nan⟩) && decide (ce = 0) &&
    decide (g = [0]) && decide (f = ⟨.nan⟩) && decide (fa = none) && decide (sc0 = 0) && decide (sc1 = 8) && decide (e.i = 1) &&
    decide (e.j = 0) && decide (e.l = 0) && decide (e.u = 2))

theorem infiniteCheck_eq : infiniteCheck = .ok true := by decide +kernel

/-- with any larger `int` and much fuel, the loop of `Flow::refine` overflows in the first phase -/
theorem infinite_minCost {imax : Int} (hi : 1000 ≤ imax) : ∃ N, ∀ fuel, N ≤ fuel → ∃ vcm M U,
    ProblemSolver.calc' imax fuel infiniteLimits = .ok (vcm, M, U) ∧
    (Flow.mk' imax fuel 1 M U infiniteLimits >>= Flow.minCost imax fuel) = .error .overflow := by
  obtain ⟨a, ha, h⟩ := bind_eq_ok.1 infiniteCheck_eq
  obtain ⟨s, hs, h⟩ := bind_eq_ok.1 h
  obtain ⟨s1, hs1, h⟩ := bind_eq_ok.1 h
  obtain ⟨s2, hs2, h⟩ := bind_eq_ok.1 h
  obtain ⟨imb, himb, h⟩ := bind_eq_ok.1 h
  obtain ⟨ce, hce, h⟩ := bind_eq_ok.1 h
  obtain ⟨g, hg, h⟩ := bind_eq_ok.1 h
  obtain ⟨f, hf, h⟩ := bind_eq_ok.1 h
  obtain ⟨fa, hfa, h⟩ := bind_eq_ok.1 h
  obtain ⟨sc0, hsc0, h⟩ := bind_eq_ok.1 h
  obtain ⟨sc1, hsc1, h⟩ := bind_eq_ok.1 h
  obtain ⟨e, he, h⟩ := bind_eq_ok.1 h
  obtain ⟨b0, hb0, h⟩ := bind_eq_ok.1 h
  obtain ⟨b1, hb1, h⟩ := bind_eq_ok.1 h
  obtain ⟨b2, hb2, h⟩ := bind_eq_ok.1 h
  simp only [Except.ok.injEq, Bool.and_eq_true, decide_eq_true_eq] at h
  obtain ⟨⟨⟨⟨⟨⟨⟨⟨⟨⟨⟨⟨⟨⟨heps, i1⟩, i2⟩, i3⟩, i4⟩, i5⟩, i6⟩, i7⟩, i8⟩, i9⟩, i10⟩, i11⟩, i12⟩, i13⟩, i14⟩ := h
  have hst : Flow.NanFront s2 8 := by
    refine ⟨i1, i2, i3, i4 ▸ himb, i5 ▸ hce, i6 ▸ hg, i7 ▸ hf, i8 ▸ hfa, i9 ▸ hsc0, i10 ▸ hsc1, e, he, i11, i12, ?_⟩
    intro t h1 h2
    rw [i13] at h1
    rw [i14] at h2
    interval_cases t
    · exact ⟨_, hb0⟩
    · exact ⟨_, hb1⟩
    · exact ⟨_, hb2⟩
  have r1 := Flow.rounds_sound hs2
  refine ⟨66 + imax.toNat, fun fuel hf => ?_⟩
  have h60 : 60 ≤ fuel := by omega
  obtain ⟨vcm, M, U⟩ := a
  refine ⟨vcm, M, U, ?_, ?_⟩
  · have h1 := ProblemSolver.calcLoop_wid hi 60 (List.forall₂_same.2 fun e (_ : e ∈ infiniteLimits) => WE.refl e) (0, 1, 0)
    have h2 : ProblemSolver.calcLoop 1000 60 infiniteLimits (0, 1, 0) = .ok (vcm, M, U) := ha
    rw [h2] at h1
    generalize hy : ProblemSolver.calcLoop imax 60 infiniteLimits (0, 1, 0) = y at h1
    cases h1 with
    | ok e =>
      subst e
      rcases ProblemSolver.calcLoop_le (imax := imax) h60 infiniteLimits (0, 1, 0) with h | h
      · rw [hy] at h; cases h
      · exact h.symm.trans hy
  · have h1 := Flow.mk'_wid hi 60 1 M U (List.forall₂_same.2 fun e (_ : e ∈ infiniteLimits) => WE.refl e)
    dsimp only at hs
    rw [hs] at h1
    generalize hy : Flow.mk' imax 60 1 M U infiniteLimits = y at h1
    cases h1 with
    | @ok _ s' hw =>
      have e1 : Flow.mk' imax fuel 1 M U infiniteLimits = .ok s' := by
        rcases Flow.mk'_le (imax := imax) h60 1 M U infiniteLimits with h | h
        · rw [hy] at h; cases h
        · exact h.symm.trans hy
      have hwi : Flow.WF s.initialization s'.initialization :=
        hw.elim (P := fun s' => Flow.WF s.initialization s'.initialization) fun E hE => ⟨rfl, hE⟩
      have h2 := Flow.pushAll_wid hi hwi
      rw [hs1] at h2
      generalize hy2 : Flow.pushAllAdmissibleEdge imax s'.initialization = y2 at h2
      cases h2 with
      | @ok _ s1' hw1 =>
        obtain ⟨s2', q1, hw2⟩ := r1.wid hi hw1
        have q1 := q1.mono h60
        have hover : Flow.refineLoop imax fuel fuel s1' = .error .overflow := by
          obtain ⟨g, rfl⟩ : ∃ g, fuel = g + imax.toNat + 1 + 3 := ⟨fuel - (imax.toNat + 4), by omega⟩
          rw [q1.loop]
          exact (hst.wid hw2).loop (by omega) (g + imax.toNat + 2) imax.toNat g (by omega)
        have hphase : Flow.phase imax fuel s' = .error .overflow := by
          unfold Flow.phase
          dsimp only
          rw [hy2, ok_bind]
          unfold Flow.refine
          unfold Flow.refineLoop at hover
          rw [hover]
          rfl
        rw [e1, ok_bind]
        unfold Flow.minCost Flow.phases
        obtain ⟨g, hg⟩ : ∃ g, fuel = g + 1 := ⟨fuel - 1, by omega⟩
        have hep : 2 ≤ s'.epsilon := by rw [hw.eq]; exact heps
        have hloop' : whileLoop (fun s : Flow (Flt binary64) => .ok (decide (s.epsilon ≥ 2))) (Flow.phase imax fuel) fuel s' =
            .error .overflow := by
          conv_lhs => rw [hg]
          unfold whileLoop
          rw [← hg, hphase]
          simp [hep]
        rw [hloop']
        rfl

theorem infinite_cost (μ ω : Nat → Int) : cost infiniteP μ ω = infiniteP.F 1 (μ 1) := by
  have : IsEmpty (Fin infiniteP.pairs.length) := inferInstanceAs (IsEmpty (Fin 0))
  unfold cost
  rw [Finset.univ_eq_empty, Finset.sum_empty, add_zero]
  simp [infiniteP]

theorem infinite_optimum : IsOptimum infiniteP 1 := by
  constructor
  · refine ⟨fun _ => 1, fun _ => 0, ⟨fun i _ _ => ⟨by simp [infiniteP], by simp [infiniteP]⟩, fun k hk => absurd hk (by simp [infiniteP])⟩, ?_⟩
    rw [infinite_cost]
    simp [infiniteP]
  · intro μ ω h
    have h1 := (h.1 1 le_rfl le_rfl)
    simp only [infiniteP] at h1
    rw [infinite_cost]
    simp only [infiniteP]
    split
    · exact le_top
    · have : (1 : ℚ) ≤ (μ 1 : ℚ) := by exact_mod_cast (by omega : (1 : Int) ≤ μ 1)
      exact_mod_cast this

/-- C62. With `double` a value may not be forbidden by the cost `+inf`: there is an instance with a single variable and no pairs, whose
cost is convex (also at the infinite value), and whose optimum is finite, with which the program does not end: whatever the size of
`int`, the loop of `Flow::refine` goes on until a potential overflows. -/
theorem C62_infinite_cost : Represents (infiniteP.mapCosts toDouble) infiniteMus [] ∧ WellFormed infiniteP ∧
    (∀ x, 0 ≤ x → x + 2 ≤ 2 → infiniteP.F 1 (x + 1) + infiniteP.F 1 (x + 1) ≤ infiniteP.F 1 x + infiniteP.F 1 (x + 2)) ∧
    Capacity 48 infiniteP ∧ IsOptimum infiniteP 1 ∧
    ∀ imax, ∃ N, ∀ fuel, N ≤ fuel → ProblemSolver.run imax fuel infiniteP.n infiniteMus [] = .error .overflow := by
  refine ⟨infinite_rep, ?_, ?_, ?_, infinite_optimum, fun imax => ?_⟩
  · constructor <;> simp [infiniteP]
  · intro x h1 h2
    obtain rfl : x = 0 := by omega
    simp [infiniteP]
  · have hb : Nat.clog 2 4 = 2 := by decide +kernel
    refine ⟨by constructor <;> simp [infiniteP], 2, ?_, ?_, ?_⟩
    · constructor <;> simp [infiniteP]
    · constructor <;> simp [infiniteP]
    · simp [infiniteP, bitCeil, hb]
  obtain ⟨N, hN⟩ := infinite_minCost (imax := max imax 1000) (le_max_right _ _)
  refine ⟨N, fun fuel hf => ?_⟩
  obtain ⟨vcm, M, U, h1, h2⟩ := hN fuel hf
  have hrun : ProblemSolver.run (max imax 1000) fuel infiniteP.n infiniteMus [] = .error .overflow := by
    have e1 : ProblemSolver.mk' (max imax 1000) fuel infiniteP.n infiniteMus [] = .ok ⟨1, infiniteMus, []⟩ := by
      have : ProblemSolver.checkMus infiniteMus 1 infiniteP.n = .ok true := by decide +kernel
      unfold ProblemSolver.mk'
      rw [if_neg (by decide), this]
      rfl
    have e2 : ProblemSolver.mergeLimits (max imax 1000) ⟨1, infiniteMus, []⟩ = .ok (some infiniteLimits) := rfl
    unfold ProblemSolver.run
    rw [e1, ok_bind]
    unfold ProblemSolver.solve
    rw [if_neg (by decide), e2, ok_bind]
    dsimp only
    rw [h1, ok_bind]
    cases hm : Flow.mk' (max imax 1000) fuel 1 M U infiniteLimits with
    | error e =>
      rw [hm] at h2
      exact congrArg _ (Except.error.inj h2)
    | ok s =>
      rw [hm, ok_bind] at h2
      rw [ok_bind, h2]
      rfl
  have hw := ProblemSolver.run_wid (le_max_left imax 1000) fuel infiniteP.n infiniteMus []
  rw [hrun] at hw
  generalize ProblemSolver.run imax fuel infiniteP.n infiniteMus [] = x at hw
  cases hw <;> rfl

/-- with a large number in the place of `+inf` the program returns the optimum -/
example : Returns (fun fuel => ProblemSolver.run 48 fuel 1
    [⟨0, 0, fun _ => .error .callback⟩, ⟨0, 2, fun x => .ok (if x = 0 then Flt.ofRat binary64 1000000 else Flt.ofRat _ x)⟩] [])
    (some (Flt.ofRat binary64 1)) :=
  returns_of_eval 200 (by decide +kernel) fun _ _ h => ProblemSolver.run_le h _ _ _

end Props
end AHO
