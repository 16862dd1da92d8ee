import Verif.Proof.Loop
import Verif.Props.Structures
import Verif.Props.WrappedDouble
/-!
# What the tolerance of `WrappedDouble` does to costs which are finer than it

All numbers in this file are multiples of `2 ^ -15`, about `0.3 * eps`, so that nothing is rounded; `Data = double` gives the optimum.
-/

namespace AHO.Props
open Spec Format

/-! ### Nothing is returned although the constraints can be met -/

/-- `μ₁` is -2, at no cost, or -1, at cost `3 / 2 ^ 15` -/
def smallP : Problem ℚ where
  n := 1
  lo _ := -2
  hi _ := -1
  F _ x := if x = -2 then 0 else 3 / 2 ^ 15
  pairs := []

/-- `Mus` for `smallP`, for any `Data` -/
def smallMus {D : Type} (of : ℚ → D) : List (MuLimit D) :=
  [⟨0, 0, fun _ => .error .callback⟩, ⟨-2, -1, fun x => .ok (of (if x = -2 then 0 else 3 / 2 ^ 15))⟩]

theorem small_rep {D : Type} (of : ℚ → D) : Represents (smallP.mapCosts of) (smallMus of) [] := by
  refine ⟨rfl, ?_, .nil⟩
  intro i h h1
  have h3 : i < 2 := h
  interval_cases i
  exact ⟨rfl, rfl, fun x a b => rfl⟩

theorem small_cost (μ ω : Nat → Int) : cost smallP μ ω = if μ 1 = -2 then 0 else 3 / 2 ^ 15 := by
  have h0 : ∑ k : Fin smallP.pairs.length, smallP.pairs[k].B (ω k) = 0 := Finset.sum_eq_zero fun k _ => k.elim0
  rw [cost, h0]
  simp [smallP]

/-- C75. With `WrappedDouble` the program can return nothing although the constraints can be met, here for one variable with two
possible values. All operations are exact, and with `double` the program returns the optimum. -/
theorem C75_wrapped_nullopt_though_feasible : WellFormed smallP ∧ ConvexCosts smallP ∧ Capacity (2 ^ 31 - 1) smallP ∧
    (smallP.AllCosts fun v => ∃ k : Int, v = k / 2 ^ 15) ∧ IsOptimum smallP 0 ∧
    Represents (smallP.mapCosts (wrap binary64)) (smallMus (wrap binary64)) [] ∧
    Returns (fun fuel => ProblemSolver.run (2 ^ 31 - 1) fuel smallP.n (smallMus (wrap binary64)) []) none ∧
    Represents (smallP.mapCosts (Flt.ofRat binary64)) (smallMus (Flt.ofRat binary64)) [] ∧
    Returns (fun fuel => ProblemSolver.run (2 ^ 31 - 1) fuel smallP.n (smallMus (Flt.ofRat binary64)) [])
      (some (Flt.ofRat binary64 0)) := by
  have hb : Nat.clog 2 4 = 2 := by decide +kernel
  refine ⟨?_, ?_, ⟨?_, 2, ?_, ?_, ?_⟩, ⟨?_, by simp [smallP]⟩, ⟨⟨fun _ => -2, fun _ => 0, ⟨by simp [smallP], by simp [smallP]⟩, ?_⟩, ?_⟩,
    small_rep _, returns_of_eval 60 (by decide +kernel) fun _ _ h => ProblemSolver.run_le h _ _ _,
    small_rep _, returns_of_eval 60 (by decide +kernel) fun _ _ h => ProblemSolver.run_le h _ _ _⟩
  · constructor <;> simp [smallP]
  · constructor
    · intro i _ _ x h1 h2
      simp only [smallP] at h1 h2
      omega
    · simp [smallP]
  · constructor <;> simp [smallP]
  · constructor <;> simp [smallP]
  · constructor <;> simp [smallP]
  · simp [smallP, bitCeil, hb]
  · intro i _ _ x _ _
    simp only [smallP]
    split
    · exact ⟨0, by norm_num⟩
    · exact ⟨3, by norm_num⟩
  · rw [small_cost]; rfl
  · intro μ ω _
    rw [small_cost]
    split <;> norm_num

/-! ### The program does not end -/

/-- both variables are in `[0, 2]` -/
def circleP : Problem ℚ where
  n := 2
  lo _ := 0
  hi _ := 2
  F i x := (if i = 1 then if x = 0 then -4 else if x = 1 then -8 else -5 else if x = 0 then 5 else if x = 1 then -1 else 0) / 2 ^ 15
  pairs := []

/-- the cost function of node `i` in `circleP`, for any `Data` -/
def circleF {D : Type} (of : ℚ → D) (i : Nat) (x : Int) : Res D := .ok (of (circleP.F i x))

/-- `Mus` for `circleP`, for any `Data` -/
def circleMus {D : Type} (of : ℚ → D) : List (MuLimit D) :=
  [⟨0, 0, fun _ => .error .callback⟩, ⟨0, 2, circleF of 1⟩, ⟨0, 2, circleF of 2⟩]

/-- the limits of `circleP` -/
def circleLimits {D : Type} (of : ℚ → D) : List (OmegaLimit D) := [⟨⟨0, 2, circleF of 1⟩, 1, 0⟩, ⟨⟨0, 2, circleF of 2⟩, 2, 0⟩]

theorem circleCheck_lt : ∀ k, k < 4 → loopCheck 1000 60 2 (circleLimits (wrap binary64)) 6 7 8 k = .ok true := by decide +kernel

theorem circleCheck_ge (k : Nat) : loopCheck 1000 60 2 (circleLimits (wrap binary64)) 6 7 8 (k + 4) = .ok true := by kernel_eval

theorem circle_rep {D : Type} (of : ℚ → D) : Represents (circleP.mapCosts of) (circleMus of) [] := by
  refine ⟨rfl, ?_, .nil⟩
  intro i h h1
  have h3 : i < 3 := h
  interval_cases i <;> exact ⟨rfl, rfl, fun x a b => rfl⟩

theorem circle_optimum : IsOptimum circleP (-9 / 2 ^ 15) := by
  have hc : ∀ μ ω, cost circleP μ ω = circleP.F 1 (μ 1) + circleP.F 2 (μ 2) := by
    intro μ ω
    have h0 : ∑ k : Fin circleP.pairs.length, circleP.pairs[k].B (ω k) = 0 := Finset.sum_eq_zero fun k _ => k.elim0
    rw [cost, h0, add_zero]
    exact Finset.sum_pair (by decide : (1 : Nat) ≠ 2)
  refine ⟨⟨fun _ => 1, fun _ => 0, ⟨by simp [circleP], by simp [circleP]⟩, ?_⟩, ?_⟩
  · rw [hc]; norm_num [circleP]
  · intro μ ω h
    have h1 : 0 ≤ μ 1 ∧ μ 1 ≤ 2 := h.1 1 le_rfl (by decide)
    have h2 : 0 ≤ μ 2 ∧ μ 2 ≤ 2 := h.1 2 (by decide) le_rfl
    rw [hc]
    generalize μ 1 = a at h1 ⊢
    generalize μ 2 = b at h2 ⊢
    obtain ⟨a1, a2⟩ := h1
    obtain ⟨b1, b2⟩ := h2
    interval_cases a <;> interval_cases b <;> decide +kernel

/-- C75. With `WrappedDouble` the program need not end: whatever the size of `int`, the loop of `Flow::refine` goes on until a potential
overflows. All operations are exact, and with `double` the program returns the optimum. -/
theorem C75_wrapped_never_returns : WellFormed circleP ∧ ConvexCosts circleP ∧ Capacity (2 ^ 31 - 1) circleP ∧
    (circleP.AllCosts fun v => ∃ k : Int, v = k / 2 ^ 15) ∧ IsOptimum circleP (-9 / 2 ^ 15) ∧
    Represents (circleP.mapCosts (wrap binary64)) (circleMus (wrap binary64)) [] ∧
    (∀ imax, ∃ N, ∀ fuel, N ≤ fuel → ProblemSolver.run imax fuel circleP.n (circleMus (wrap binary64)) [] = .error .overflow) ∧
    Represents (circleP.mapCosts (Flt.ofRat binary64)) (circleMus (Flt.ofRat binary64)) [] ∧
    Returns (fun fuel => ProblemSolver.run (2 ^ 31 - 1) fuel circleP.n (circleMus (Flt.ofRat binary64)) [])
      (some (Flt.ofRat binary64 (-9 / 2 ^ 15))) := by
  have hb : Nat.clog 2 6 = 3 := by decide +kernel
  refine ⟨?_, ?_, ⟨?_, 2, ?_, ?_, ?_⟩, ⟨?_, by simp [circleP]⟩, circle_optimum, circle_rep _, fun imax => ?_, circle_rep _,
    returns_of_eval 60 (by decide +kernel) fun _ _ h => ProblemSolver.run_le h _ _ _⟩
  · constructor <;> simp [circleP]
  · constructor
    · intro i _ _ x h1 h2
      simp only [circleP] at h1 h2
      obtain rfl : x = 0 := by omega
      by_cases hi : i = 1 <;> simp [circleP, hi] <;> norm_num
    · simp [circleP]
  · constructor <;> simp [circleP]
  · constructor <;> simp [circleP]
  · constructor <;> simp [circleP]
  · simp [circleP, bitCeil, hb]
  · intro i _ _ x _ _
    refine ⟨if i = 1 then if x = 0 then -4 else if x = 1 then -8 else -5 else if x = 0 then 5 else if x = 1 then -1 else 0, ?_⟩
    simp only [circleP]
    push_cast
    rfl
  · refine loopCheck_run (limits := circleLimits (wrap binary64)) (imax₀ := 1000) (F := 60) (a := 6) (b := 7)
      (by decide : (0 : Int) < 8) (fun k => ?_) (by decide) (by decide) (by decide +kernel) (fun _ => rfl) imax
    rcases Nat.lt_or_ge k 4 with hk | hk
    · exact circleCheck_lt k hk
    · obtain ⟨m, rfl⟩ := Nat.exists_eq_add_of_le' hk
      exact circleCheck_ge m

/-! ### The link-cut tree loses and duplicates summands -/

/-- an operation with another number type -/
def mapOp {K L : Type} (g : K → L) : ForestOp K → ForestOp L
  | .findRoot x => .findRoot x
  | .setFa x f => .setFa x f
  | .cut x => .cut x
  | .getVal x => .getVal x
  | .setVal x v => .setVal x (g v)
  | .addVal x d => .addVal x (g d)
  | .getMin x => .getMin x

/-- `k / 2 ^ 15` -/
def tick (k : Int) : ℚ := k / 2 ^ 15

/-- node 2 is attached to node 1, and node 1 to node 0 -/
def threeOps : List (ForestOp ℚ) := [.setFa 1 0, .setFa 2 1]

/-- nine summands; together they change the value of node 1 by `-2 / 2 ^ 15`, and the values of the nodes 0 and 2 by nothing -/
def turnOps : List (ForestOp ℚ) :=
  [.addVal 2 (tick 1), .addVal 0 (tick 1), .addVal 2 (tick 1), .addVal 2 (tick 1), .addVal 0 (tick 1), .addVal 2 (tick 1),
    .addVal 1 (tick 50), .addVal 2 (tick (-4)), .addVal 1 (tick (-52))]

section
variable {K : Type} [Zero K] [Add K] [LT K] [LE K] [DecidableLT K] [DecidableLE K] [BEq K]

theorem lctStep_mono {f f' : Nat} (hf : f ≤ f') (h : Heap K) (op : ForestOp K) : Le (lctStep f h op) (lctStep f' h op) := by
  cases op with
  | findRoot x => exact (LCT.findRoot_le hf h x).bind fun _ => .refl _
  | setFa x y => exact (LCT.setFa_le hf h x y).bind fun _ => .refl _
  | cut x => exact (LCT.cut_le hf h x).bind fun _ => .refl _
  | getVal x => exact (LCT.getVal_le hf h x).bind fun _ => .refl _
  | setVal x v => exact (LCT.setVal_le hf h x v).bind fun _ => .refl _
  | addVal x d => exact (LCT.addVal_le hf h x d).bind fun _ => .refl _
  | getMin x => exact (LCT.getMin_le hf h x).bind fun _ => .refl _

theorem lctRun_mono {f f' : Nat} (hf : f ≤ f') : ∀ (ops : List (ForestOp K)) (h : Heap K), Le (lctRun f h ops) (lctRun f' h ops) := by
  intro ops
  induction ops with
  | nil => intro h; exact .refl _
  | cons op ops ih =>
    intro h
    exact (lctStep_mono hf h op).bind fun a => (ih a.2).bind fun _ => .refl _

theorem lctRun_append {f : Nat} : ∀ {ops ops' : List (ForestOp K)} {h h1 h2 : Heap K} {as bs : List (ForestAns K)},
    lctRun f h ops = .ok (as, h1) → lctRun f h1 ops' = .ok (bs, h2) → lctRun f h (ops ++ ops') = .ok (as ++ bs, h2) := by
  intro ops
  induction ops with
  | nil => intro ops' h h1 h2 as bs e1 e2; cases e1; exact e2
  | cons op ops ih =>
    intro ops' h h1 h2 as bs e1 e2
    simp only [lctRun] at e1
    obtain ⟨⟨a, h'⟩, s1, e1⟩ := bind_eq_ok.1 e1
    obtain ⟨⟨as', h''⟩, s2, e1⟩ := bind_eq_ok.1 e1
    cases e1
    simp only [List.cons_append, lctRun, s1, ok_bind, ih s2 e2]

end

deriving instance DecidableEq for ForestAns

/-- The state after `threeOps` and `turnOps` is compared with the state after `turnOps` once more, at the position `k`; the value of
node 1 is read. -/
def turnCheck (k : Nat) : Res Bool := do
  let a ← lctRun 10 (lctInit 3 : Heap (Wrapped (Flt binary64))) ((threeOps ++ turnOps).map (mapOp (wrap binary64)))
  let b ← lctRun 10 a.2 (turnOps.map (mapOp (wrap binary64)))
  let c ← lctRun 10 a.2 [.getVal 1]
  .ok (decide (b.2.size = a.2.size) && decide (b.2.get k = a.2.get k) && decide (c.1 = [.value (wrap binary64 0)]))

theorem turnCheck_lt : ∀ k, k < 3 → turnCheck k = .ok true := by decide +kernel

theorem turnCheck_ge (k : Nat) : turnCheck (k + 3) = .ok true := by kernel_eval

theorem turn_state : ∃ as bs h h', lctRun 10 (lctInit 3 : Heap (Wrapped (Flt binary64))) ((threeOps ++ turnOps).map (mapOp (wrap binary64))) = .ok (as, h) ∧
    lctRun 10 h (turnOps.map (mapOp (wrap binary64))) = .ok (bs, h) ∧
    lctRun 10 h [.getVal 1] = .ok ([.value (wrap binary64 0)], h') := by
  have check : ∀ k, turnCheck k = .ok true := by
    intro k
    rcases Nat.lt_or_ge k 3 with hk | hk
    · exact turnCheck_lt k hk
    · obtain ⟨m, rfl⟩ := Nat.exists_eq_add_of_le' hk
      exact turnCheck_ge m
  obtain ⟨⟨as, h⟩, h1, e⟩ := bind_eq_ok.1 (check 0)
  obtain ⟨⟨bs, h'⟩, h2, e⟩ := bind_eq_ok.1 e
  obtain ⟨⟨cs, h''⟩, h3, e⟩ := bind_eq_ok.1 e
  simp only [Except.ok.injEq, Bool.and_eq_true, decide_eq_true_eq] at e
  obtain ⟨⟨z, -⟩, rfl⟩ := e
  have hk : ∀ k, h'.get k = h.get k := by
    intro k
    have := check k
    unfold turnCheck at this
    simp only [h1, h2, h3, ok_bind, Except.ok.injEq, Bool.and_eq_true, decide_eq_true_eq] at this
    exact this.1.2
  obtain rfl : h' = h := Vec.eq_of z hk
  exact ⟨as, bs, h', h'', h1, h2, h3⟩

/-- the forest with node 2 attached to node 1 and node 1 to node 0 -/
def threePar (x : Nat) : Option Nat := if x = 2 then some 1 else if x = 1 then some 0 else none

theorem three_onWay {F : Forest ℚ} (hp : F.par = threePar) {x v : Nat} (hx : x < 3) : F.OnWay x v ↔ v ≤ x := by
  constructor
  · intro h
    induction h with
    | refl => exact le_rfl
    | @tail b c h1 h2 ih =>
      rw [hp] at h2
      unfold threePar at h2
      split at h2
      · cases h2; omega
      · split at h2
        · cases h2; omega
        · cases h2
  · intro h
    have e1 : F.par 2 = some 1 := by rw [hp]; rfl
    have e0 : F.par 1 = some 0 := by rw [hp]; rfl
    interval_cases x <;> interval_cases v
    · exact .refl
    · exact .single e0
    · exact .refl
    · exact .head e1 (.single e0)
    · exact .single e1
    · exact .refl

/-- summands in a chain -/
theorem three_adds : ∀ (l : List (Nat × ℚ)) (F : Forest ℚ), F.par = threePar → (∀ a ∈ l, a.1 < 3) →
    Forest.Valid 3 F (l.map fun a => .addVal a.1 a.2) ∧ ((l.map fun a => .addVal a.1 a.2).foldl Forest.apply F).par = threePar ∧
    ∀ v, ((l.map fun a => .addVal a.1 a.2).foldl Forest.apply F).val v = F.val v + (l.map fun a => if v ≤ a.1 then a.2 else 0).sum := by
  intro l
  induction l with
  | nil => intro F hp _; exact ⟨trivial, hp, fun v => by simp⟩
  | cons a l ih =>
    intro F hp hl
    have ha : a.1 < 3 := hl a (by simp)
    obtain ⟨h1, h2, h3⟩ := ih (F.apply (.addVal a.1 a.2)) hp fun b hb => hl b (by simp [hb])
    refine ⟨⟨ha, h1⟩, h2, fun v => ?_⟩
    simp only [List.map_cons, List.foldl_cons, List.sum_cons]
    rw [h3]
    simp only [Forest.apply, three_onWay hp ha]
    split <;> ring

/-- the summands of `turnOps` -/
def turnAdds : List (Nat × ℚ) :=
  [(2, tick 1), (0, tick 1), (2, tick 1), (2, tick 1), (0, tick 1), (2, tick 1), (1, tick 50), (2, tick (-4)), (1, tick (-52))]

theorem valid_append {n : Nat} : ∀ {ops ops' : List (ForestOp ℚ)} {F : Forest ℚ}, Forest.Valid n F ops →
    Forest.Valid n (ops.foldl Forest.apply F) ops' → Forest.Valid n F (ops ++ ops') := by
  intro ops
  induction ops with
  | nil => intro _ _ _ h; exact h
  | cons op ops ih => intro ops' F h h'; exact ⟨h.1, ih h.2 h'⟩

theorem turns_exact (k : Nat) : Forest.Valid 3 Forest.init (threeOps ++ (List.replicate k turnOps).flatten) ∧
    ((threeOps ++ (List.replicate k turnOps).flatten).foldl Forest.apply (Forest.init : Forest ℚ)).val 1 = k * tick (-2) := by
  have h0 : Forest.Valid 3 (Forest.init : Forest ℚ) threeOps := by
    refine ⟨⟨by decide, by decide, rfl, ?_⟩, ⟨by decide, by decide, by simp [Forest.apply, Forest.init], ?_⟩, trivial⟩
    · intro h
      rcases Relation.ReflTransGen.cases_head h with h | ⟨c, hc, -⟩
      · cases h
      · cases hc
    · intro h
      rcases Relation.ReflTransGen.cases_head h with h | ⟨c, hc, h⟩
      · cases h
      · simp only [Forest.apply, if_true] at hc
        cases hc
        rcases Relation.ReflTransGen.cases_head h with h | ⟨c, hc, h⟩
        · cases h
        · simp [Forest.apply, Forest.init] at hc
  have hp : (threeOps.foldl Forest.apply (Forest.init : Forest ℚ)).par = threePar := by
    funext x
    simp only [threeOps, List.foldl_cons, List.foldl_nil, Forest.apply, threePar, Forest.init]
  have hv : ∀ v, (threeOps.foldl Forest.apply (Forest.init : Forest ℚ)).val v = 0 := by
    intro v
    simp only [threeOps, List.foldl_cons, List.foldl_nil, Forest.apply, Forest.init]
  have key : ∀ (k : Nat) (F : Forest ℚ), F.par = threePar → Forest.Valid 3 F (List.replicate k turnOps).flatten ∧
      ((List.replicate k turnOps).flatten.foldl Forest.apply F).val 1 = F.val 1 + k * tick (-2) := by
    intro k
    induction k with
    | zero => intro F _; exact ⟨trivial, by simp⟩
    | succ k ih =>
      intro F hF
      have e : turnOps = turnAdds.map fun a => .addVal a.1 a.2 := rfl
      obtain ⟨h1, h2, h3⟩ := three_adds turnAdds F hF (by decide)
      rw [← e] at h1 h2 h3
      obtain ⟨h4, h5⟩ := ih _ h2
      rw [List.replicate_succ, List.flatten_cons]
      refine ⟨valid_append h1 h4, ?_⟩
      rw [List.foldl_append, h5, h3]
      have : (turnAdds.map fun a => if 1 ≤ a.1 then a.2 else 0).sum = tick (-2) := by decide +kernel
      rw [this]
      push_cast
      ring
  obtain ⟨h1, h2⟩ := key k _ hp
  refine ⟨valid_append h0 h1, ?_⟩
  rw [List.foldl_append, h2, hv, zero_add]

/-- C75. With `WrappedDouble` the values in the link-cut tree can be wrong by any amount: after `threeOps` and `k` times `turnOps` the
value of node 1 is `-2 k / 2 ^ 15`, but the program returns 0. No operation is rounded. -/
theorem C75_wrapped_tree_error_unbounded (k : Nat) (hk : 1 ≤ k) :
    Forest.Valid 3 Forest.init (threeOps ++ (List.replicate k turnOps).flatten) ∧
    ((threeOps ++ (List.replicate k turnOps).flatten).foldl Forest.apply (Forest.init : Forest ℚ)).val 1 = k * tick (-2) ∧
    ∃ as h, Returns (fun fuel => lctRun fuel (lctInit 3)
      ((threeOps ++ (List.replicate k turnOps).flatten ++ [ForestOp.getVal 1]).map (mapOp (wrap binary64)))) (as ++ [.value (wrap binary64 0)], h) := by
  refine ⟨(turns_exact k).1, (turns_exact k).2, ?_⟩
  obtain ⟨as, bs, h, h', e1, e2, e3⟩ := turn_state
  obtain ⟨m, rfl⟩ : ∃ m, k = m + 1 := ⟨k - 1, by omega⟩
  have e4 : ∃ cs, lctRun 10 h ((List.replicate m turnOps).flatten.map (mapOp (wrap binary64))) = .ok (cs, h) := by
    clear hk
    induction m with
    | zero => exact ⟨[], rfl⟩
    | succ m ih =>
      obtain ⟨cs, ih⟩ := ih
      refine ⟨bs ++ cs, ?_⟩
      rw [List.replicate_succ, List.flatten_cons, List.map_append]
      exact lctRun_append e2 ih
  obtain ⟨cs, e4⟩ := e4
  refine ⟨as ++ cs, h', returns_of_eval 10 ?_ fun _ _ hf => lctRun_mono hf _ _⟩
  rw [List.replicate_succ, List.flatten_cons, ← List.append_assoc, List.map_append, List.map_append (l₁ := threeOps ++ turnOps)]
  exact lctRun_append (lctRun_append e1 e4) e3

/-- the value is wrong by more than 1 after 20000 turns -/
example : (20000 : Nat) * tick (-2) < -1 := by norm_num [tick]

/-! ### The instances of C37 and C38 -/

/-- the same function with `WrappedDouble` -/
def wrapMu (m : MuLimit (Flt binary64)) : MuLimit (Wrapped (Flt binary64)) := ⟨m.l, m.u, fun x => (m.fn x).map Wrapped.mk⟩

/-- C75. On the instances with which `double` fails (C37, C38) `WrappedDouble` gives the optimum: 0, and the `double` next to
`0.6 + 0.1`. -/
theorem C75_wrapped_cures :
    Returns (fun fuel => ProblemSolver.run (2 ^ 31 - 1) fuel driftP.n (driftMus.map wrapMu) []) (some (wrap binary64 0)) ∧
    ∃ v : ℚ, Returns (fun fuel => ProblemSolver.run (2 ^ 31 - 1) fuel tenthP.n (tenthMus.map wrapMu) []) (some (wrap binary64 v)) ∧
      |v - (dbl (6 / 10) + dbl (1 / 10))| < 1 / 2 ^ 53 :=
  ⟨returns_of_eval 60 (by decide +kernel) fun _ _ h => ProblemSolver.run_le h _ _ _, 6305039478318695/9007199254740992,
    returns_of_eval 60 (by decide +kernel) fun _ _ h => ProblemSolver.run_le h _ _ _, by decide +kernel⟩

end AHO.Props
