import Verif.Proof.LCTOps
import Verif.Proof.Queue
import Verif.Proof.Mono
import Verif.SpecForest
import Mathlib.Algebra.Order.Ring.Rat
/-!
# Properties of the link-cut tree and of `UniqueQueue`
-/

namespace AHO.Props
open Spec

/-! ### C17 -/

/-- an operation on the queue of the program -/
def uqStep (q : UQ) : QueueOp → Res UQ
  | .push x => q.push x
  | .pop => q.pop
  | .clear => .ok q.clear

/-- C17. After every sequence of operations which the specification allows, the queue of the program has the specified
contents: `front` returns the oldest element, `empty` tells whether there is none, and no element is twice in it. -/
theorem C17_unique_queue (n : Nat) (ops : List QueueOp) (l : List Nat) (h : ops.foldlM (queueApply n) [] = some l) :
    ∃ q, ops.foldlM uqStep (UQ.mk' n) = .ok q ∧ (∀ x xs, l = x :: xs → q.front = .ok x) ∧ (q.empty = true ↔ l = []) ∧
      l.Nodup ∧ ∀ x, x < n → q.isIn.rd x = .ok (decide (x ∈ l)) := by
  have key : ∀ (ops : List QueueOp) (q : UQ) (l : List Nat), UQ.OK q → q.isIn.size = n → ops.foldlM (queueApply n) q.queue = some l →
      ∃ q', ops.foldlM uqStep q = .ok q' ∧ UQ.OK q' ∧ q'.isIn.size = n ∧ q'.queue = l := by
    intro ops
    induction ops with
    | nil =>
      intro q l ok hs h
      have : q.queue = l := by simpa using h
      exact ⟨q, rfl, ok, hs, this⟩
    | cons op ops ih =>
      intro q l ok hs h
      rw [List.foldlM_cons] at h ⊢
      cases op with
      | push x =>
        simp only [queueApply] at h
        by_cases hx : x < n
        swap
        · rw [if_neg hx] at h; cases h
        rw [if_pos hx] at h
        obtain ⟨q', e1, e2, e3, e4⟩ := UQ.push_spec ok (x := x) (by omega)
        simp only [uqStep]
        rw [e1, ok_bind]
        refine ih q' l e2 (by omega) ?_
        rw [e4]
        by_cases hm : x ∈ q.queue
        · rw [if_pos hm] at h ⊢; exact h
        · rw [if_neg hm] at h ⊢; exact h
      | pop =>
        cases hq : q.queue with
        | nil => rw [hq] at h; simp only [queueApply] at h; cases h
        | cons y ys =>
          obtain ⟨q', e1, e2, e3, e4⟩ := UQ.pop_spec ok hq
          simp only [uqStep]
          rw [e1, ok_bind]
          refine ih q' l e2 (by omega) ?_
          rw [e4]
          rw [hq] at h
          exact h
      | clear =>
        simp only [uqStep]
        rw [ok_bind]
        exact ih q.clear l (UQ.ok_clear q) hs h
  obtain ⟨q, e1, ok, hs, rfl⟩ := key ops (UQ.mk' n) l (UQ.ok_mk n) rfl h
  refine ⟨q, e1, fun x xs hx => UQ.front_spec hx, by simp [UQ.empty], ok.nodup, fun x hx => ?_⟩
  rw [Vec.rd_ok (by omega)]
  congr 1
  have := ok.flag x (by omega)
  by_cases hm : x ∈ q.queue
  · rw [decide_eq_true hm]; exact this.2 hm
  · rw [decide_eq_false hm]
    cases hb : q.isIn.get x with
    | false => rfl
    | true => exact absurd (this.1 hb) hm

/-- push 3, 1, 3, pop, push 3: now 1 is in front of 3 -/
example : [QueueOp.push 3, .push 1, .push 3, .pop, .push 3].foldlM (queueApply 4) [] = some [1, 3] := by decide

/-! ### C18, C19, C20 -/

section
variable {K : Type} [Zero K] [Add K] [LT K] [LE K] [DecidableLT K] [DecidableLE K] [BEq K]

/-- an operation on the nodes of the program -/
def lctStep (fuel : Nat) (h : Heap K) : ForestOp K → Res (ForestAns K × Heap K)
  | .findRoot x => do let (r, h) ← LCT.findRoot fuel h x; .ok (.node r, h)
  | .setFa x f => do let h ← LCT.setFa fuel h x f; .ok (.unit, h)
  | .cut x => do let h ← LCT.cut fuel h x; .ok (.unit, h)
  | .getVal x => do let (v, h) ← LCT.getVal fuel h x; .ok (.value v, h)
  | .setVal x v => do let h ← LCT.setVal fuel h x v; .ok (.unit, h)
  | .addVal x d => do let h ← LCT.addValWayToRoot fuel h x d; .ok (.unit, h)
  | .getMin x => do
    let ((v, m), h) ← LCT.getMin fuel h x
    let m ← LCT.deref m
    .ok (.min v m, h)

/-- a sequence of operations on the nodes of the program -/
def lctRun (fuel : Nat) : Heap K → List (ForestOp K) → Res (List (ForestAns K) × Heap K)
  | h, [] => .ok ([], h)
  | h, op :: ops => do
    let (a, h) ← lctStep fuel h op
    let (as, h) ← lctRun fuel h ops
    .ok (a :: as, h)

/-- the node vector of the program: `n` nodes as constructed -/
def lctInit (n : Nat) : Heap K := Vec.replicate n LCT.initNode

end

section
variable {K : Type} [AddCommGroup K] [LinearOrder K] [IsOrderedAddMonoid K]

theorem lctStep_spec {n : Nat} {fuel : Nat} (hf : n + 1 ≤ fuel) {h : Heap K} {F : Forest K} (hs : h.size = n)
    (R : LCT.Rep h F.par F.val) {op : ForestOp K} (pre : F.Pre n op) :
    ∃ a h', lctStep fuel h op = .ok (a, h') ∧ F.Correct op a ∧ h'.size = n ∧ LCT.Rep h' (F.apply op).par (F.apply op).val := by
  have hf' : h.size + 1 ≤ fuel := by omega
  cases op with
  | findRoot x =>
    obtain ⟨r, h', e1, e2, e3, e4, e5, e6⟩ := R.findRoot (x := x) (by rw [hs]; exact pre) hf'
    exact ⟨.node r, h', by simp only [lctStep]; rw [e1, ok_bind], ⟨e5, e6⟩, by omega, e3⟩
  | setFa x f =>
    obtain ⟨p1, p2, p3, p4⟩ := pre
    obtain ⟨h', e1, e2, e3⟩ := R.setFa (x := x) (f := f) (by omega) (by omega) p3 p4 hf'
    refine ⟨.unit, h', by simp only [lctStep]; rw [e1, ok_bind], trivial, by omega, ?_⟩
    have : (F.apply (.setFa x f)).par = Function.update F.par x (some f) := by
      funext v; simp only [Forest.apply, Function.update_apply]
    rw [this]; exact e3
  | cut x =>
    obtain ⟨p1, p2⟩ := pre
    obtain ⟨h', e1, e2, e3⟩ := R.cut (x := x) (by omega) p2 hf'
    refine ⟨.unit, h', by simp only [lctStep]; rw [e1, ok_bind], trivial, by omega, ?_⟩
    have : (F.apply (.cut x)).par = Function.update F.par x none := by
      funext v; simp only [Forest.apply, Function.update_apply]
    rw [this]; exact e3
  | getVal x =>
    obtain ⟨h', e1, e2, e3⟩ := R.getVal (x := x) (by rw [hs]; exact pre) hf'
    exact ⟨.value (F.val x), h', by simp only [lctStep]; rw [e1, ok_bind], rfl, by omega, e3⟩
  | setVal x v =>
    obtain ⟨h', e1, e2, e3⟩ := R.setVal (x := x) v (by rw [hs]; exact pre) hf'
    refine ⟨.unit, h', by simp only [lctStep]; rw [e1, ok_bind], trivial, by omega, ?_⟩
    have : (F.apply (.setVal x v)).val = Function.update F.val x v := by
      funext u; simp only [Forest.apply, Function.update_apply]
    rw [this]; exact e3
  | addVal x d =>
    obtain ⟨h', e1, e2, e3⟩ := R.addVal (x := x) d (by rw [hs]; exact pre) hf'
    refine ⟨.unit, h', by simp only [lctStep]; rw [e1, ok_bind], trivial, by omega, ?_⟩
    exact e3
  | getMin x =>
    obtain ⟨p1, p2⟩ := pre
    obtain ⟨h', m, e1, e2, e3, e4, e5, e6, e7, e8⟩ := R.getMin (x := x) (by omega) p2 hf'
    exact ⟨.min (F.val m) m, h', by simp only [lctStep]; rw [e1, ok_bind]; rfl, ⟨rfl, e5, e6, e7, e8⟩, by omega, e3⟩

theorem lctRun_spec {n : Nat} {fuel : Nat} (hf : n + 1 ≤ fuel) : ∀ (ops : List (ForestOp K)) {h : Heap K} {F : Forest K},
    h.size = n → LCT.Rep h F.par F.val → Forest.Valid n F ops →
    ∃ as h' F', lctRun fuel h ops = .ok (as, h') ∧ Forest.History n F ops as F' ∧ h'.size = n ∧ LCT.Rep h' F'.par F'.val := by
  intro ops
  induction ops with
  | nil => intro h F hs R _; exact ⟨[], h, F, rfl, .nil F, hs, R⟩
  | cons op ops ih =>
    intro h F hs R v
    obtain ⟨a, h1, e1, e2, e3, e4⟩ := lctStep_spec hf hs R v.1
    obtain ⟨as, h2, F', f1, f2, f3, f4⟩ := ih e3 e4 v.2
    exact ⟨a :: as, h2, F', by simp only [lctRun]; rw [e1, ok_bind, f1, ok_bind], .cons v.1 e2 f2, f3, f4⟩

omit [IsOrderedAddMonoid K] in
theorem lctStep_le {f f' : Nat} (hf : f ≤ f') (h : Heap K) (op : ForestOp K) : Le (lctStep f h op) (lctStep f' h op) := by
  cases op with
  | findRoot x => exact (LCT.findRoot_le hf h x).bind fun _ => .refl _
  | setFa x y => exact (LCT.setFa_le hf h x y).bind fun _ => .refl _
  | cut x => exact (LCT.cut_le hf h x).bind fun _ => .refl _
  | getVal x => exact (LCT.getVal_le hf h x).bind fun _ => .refl _
  | setVal x v => exact (LCT.setVal_le hf h x v).bind fun _ => .refl _
  | addVal x d => exact (LCT.addVal_le hf h x d).bind fun _ => .refl _
  | getMin x => exact (LCT.getMin_le hf h x).bind fun _ => .refl _

omit [IsOrderedAddMonoid K] in
theorem lctRun_le {f f' : Nat} (hf : f ≤ f') : ∀ (ops : List (ForestOp K)) (h : Heap K), Le (lctRun f h ops) (lctRun f' h ops) := by
  intro ops
  induction ops with
  | nil => intro h; exact .refl _
  | cons op ops ih =>
    intro h
    exact (lctStep_le hf h op).bind fun a => (ih a.2).bind fun _ => .refl _

omit [IsOrderedAddMonoid K] in
theorem history_valid {n : Nat} : ∀ {ops : List (ForestOp K)} {F F' : Forest K} {as : List (ForestAns K)},
    Forest.History n F ops as F' → Forest.Valid n F ops := by
  intro ops
  induction ops with
  | nil => intro _ _ _ _; trivial
  | cons op ops ih =>
    rintro F F' as (_ | ⟨h1, h2, h3⟩)
    exact ⟨h1, ih h3⟩

omit [IsOrderedAddMonoid K] in
theorem history_unique {n : Nat} : ∀ {ops : List (ForestOp K)} {F F1 F2 : Forest K} {as bs : List (ForestAns K)},
    Forest.History n F ops as F1 → Forest.History n F ops bs F2 → F1 = F2 := by
  intro ops
  induction ops with
  | nil => rintro F F1 F2 as bs ⟨⟩ ⟨⟩; rfl
  | cons op ops ih =>
    rintro F F1 F2 as bs (_ | ⟨h1, h2, h3⟩) (_ | ⟨g1, g2, g3⟩)
    exact ih h3 g3

omit [IsOrderedAddMonoid K] in
theorem history_final {n : Nat} : ∀ {ops : List (ForestOp K)} {F F' : Forest K} {as : List (ForestAns K)},
    Forest.History n F ops as F' → F' = ops.foldl Forest.apply F := by
  intro ops
  induction ops with
  | nil => rintro F F' as ⟨⟩; rfl
  | cons op ops ih =>
    rintro F F' as (_ | ⟨h1, h2, h3⟩)
    exact ih h3

/-- The nodes which the program has after a history represent the forest after it. -/
theorem history_rep {n : Nat} {ops : List (ForestOp K)} {as : List (ForestAns K)} {F : Forest K}
    (hist : Forest.History n Forest.init ops as F) {fuel : Nat} (hf : n + 1 ≤ fuel) :
    ∃ as' h, lctRun fuel (lctInit n : Heap K) ops = .ok (as', h) ∧ h.size = n ∧ LCT.Rep h F.par F.val := by
  obtain ⟨as', h, F', e1, e2, e3, e4⟩ := lctRun_spec hf ops (h := lctInit n) (F := Forest.init) rfl (LCT.rep_init n)
    (history_valid hist)
  obtain rfl := history_unique hist e2
  exact ⟨as', h, e1, e3, e4⟩

/-- C18, C20. Every sequence of operations on `n` fresh nodes, with the preconditions met, ends normally: no null pointer, no
access outside the node vector, no failed assertion, no endless loop. All answers are those of the forest. -/
theorem C18_link_cut_tree_is_forest (n : Nat) (ops : List (ForestOp K)) (valid : Forest.Valid n Forest.init ops) :
    ∃ as h F, Returns (fun fuel => lctRun fuel (lctInit n : Heap K) ops) (as, h) ∧ Forest.History n Forest.init ops as F := by
  obtain ⟨as, h, F, e1, e2, -, -⟩ := lctRun_spec (K := K) (n := n) le_rfl ops (h := lctInit n) (F := Forest.init) rfl (LCT.rep_init n) valid
  refine ⟨as, h, F, returns_of (n + 1) (fun fuel hf => ?_) fun f f' hff => lctRun_le hff ops _, e2⟩
  rcases lctRun_le hf ops (lctInit n : Heap K) with h' | h'
  · rw [e1] at h'; cases h'
  · rw [← h', e1]

/-- C19. After every such sequence, `get_min_wtrbnr` at a node `x` which is not a root returns the least value of the nodes
on the way from `x` to the root, the root excluded, together with the node nearest to the root which has this value. -/
theorem C19_get_min_shallowest (n : Nat) (ops : List (ForestOp K)) (as : List (ForestAns K)) (F : Forest K)
    (hist : Forest.History n Forest.init ops as F) (x : Nat) (hx : x < n) (hr : F.par x ≠ none) :
    ∃ h h' m as', Returns (fun fuel => lctRun fuel (lctInit n : Heap K) ops) (as', h) ∧
      Returns (fun fuel => LCT.getMin fuel h x) ((F.val m, some m), h') ∧
      F.OnWay x m ∧ F.par m ≠ none ∧ (∀ y, F.OnWay x y → F.par y ≠ none → F.val m ≤ F.val y) ∧
      ∀ y, F.OnWay x y → F.par y ≠ none → F.val y = F.val m → F.OnWay y m := by
  obtain ⟨as', h, e1, e3, e4⟩ := history_rep hist (fuel := n + 1) le_rfl
  obtain ⟨h', m, f1, f2, f3, f4, f5, f6, f7, f8⟩ := e4.getMin (x := x) (fuel := n + 1) (by omega) hr (by omega)
  refine ⟨h, h', m, as', ?_, ?_, f5, f6, f7, f8⟩
  · refine returns_of (n + 1) (fun fuel hf => ?_) fun f f' hff => lctRun_le hff ops _
    rcases lctRun_le hf ops (lctInit n : Heap K) with h' | h'
    · rw [e1] at h'; cases h'
    · rw [← h', e1]
  · refine returns_of (n + 1) (fun fuel hf => ?_) fun f f' hff => LCT.getMin_le hff h x
    rcases LCT.getMin_le hf h x with h'' | h''
    · rw [f1] at h''; cases h''
    · rw [← h'', f1]

/-- C20, `cut`. After every such sequence, the assertion in `cut` fails exactly at the roots. -/
theorem C20_cut_assert (n : Nat) (ops : List (ForestOp K)) (as : List (ForestAns K)) (F : Forest K)
    (hist : Forest.History n Forest.init ops as F) (x : Nat) (hx : x < n) (fuel : Nat) (hf : n + 1 ≤ fuel) :
    ∃ as' h, lctRun fuel (lctInit n : Heap K) ops = .ok (as', h) ∧
      (F.par x = none → LCT.cut fuel h x = .error .assertFail) ∧ (F.par x ≠ none → ∃ h', LCT.cut fuel h x = .ok h') := by
  obtain ⟨as', h, e1, e2, e3⟩ := history_rep hist hf
  refine ⟨as', h, e1, fun hp => e3.cutAtRoot (by omega) hp (by omega), fun hp => ?_⟩
  obtain ⟨h', e4, -⟩ := e3.cut (x := x) (by omega) hp (fuel := fuel) (by omega)
  exact ⟨h', e4⟩

/-- C20, `set_fa`. After every such sequence the assertion in `set_fa` holds at every root. -/
theorem C20_set_fa_assert (n : Nat) (ops : List (ForestOp K)) (as : List (ForestAns K)) (F : Forest K)
    (hist : Forest.History n Forest.init ops as F) (x f : Nat) (hx : x < n) (hr : F.par x = none)
    (fuel : Nat) (hfu : n + 1 ≤ fuel) :
    ∃ as' h h', lctRun fuel (lctInit n : Heap K) ops = .ok (as', h) ∧ LCT.setFa fuel h x f = .ok h' := by
  obtain ⟨as', h, e1, e2, e3⟩ := history_rep hist hfu
  obtain ⟨h', e4⟩ := e3.setFa_ok (x := x) (by omega) (f := f) hr (fuel := fuel) (by omega)
  exact ⟨as', h, h', e1, e4⟩

/-- C20, `set_fa`. After every such sequence, when `x` is attached to a node `f` below which it may be put, a second
`set_fa` at `x` directly afterwards fails. -/
theorem C20_set_fa_assert_detects (n : Nat) (ops : List (ForestOp K)) (as : List (ForestAns K)) (F : Forest K)
    (hist : Forest.History n Forest.init ops as F) (x f g : Nat) (pre : F.Pre n (.setFa x f))
    (fuel : Nat) (hfu : n + 1 ≤ fuel) :
    ∃ as' h h', lctRun fuel (lctInit n : Heap K) ops = .ok (as', h) ∧ LCT.setFa fuel h x f = .ok h' ∧
      LCT.setFa fuel h' x g = .error .assertFail := by
  obtain ⟨as', h, e1, e2, e3⟩ := history_rep hist hfu
  obtain ⟨p1, p2, p3, p4⟩ := pre
  obtain ⟨h', e4⟩ := e3.setFa_ok (x := x) (by omega) (f := f) p3 (fuel := fuel) (by omega)
  exact ⟨as', h, h', e1, e4, e3.setFa_twice (by omega) (by omega) p3 p4 (by omega) e4⟩

end

/-- A history for the examples: 1 and 3 are linked below 0, 2 below 1, then 1 is asked for its value. -/
def exOps : List (ForestOp ℚ) :=
  [.setFa 1 0, .setFa 2 1, .setVal 1 5, .addVal 2 (-3), .setFa 3 0, .findRoot 2, .getMin 2, .cut 1, .getVal 2, .setFa 1 3,
    .addVal 2 1, .getMin 2]

theorem not_onWay_root {K : Type} {F : Forest K} {f x : Nat} (h : F.par f = none) (hne : f ≠ x) : ¬ F.OnWay f x := by
  intro hw
  rcases Relation.ReflTransGen.cases_head hw with e | ⟨p, hp, -⟩
  · exact hne e
  · rw [h] at hp; cases hp

theorem not_onWay_step {K : Type} {F : Forest K} {f x p : Nat} (h : F.par f = some p) (hne : f ≠ x) (hp : ¬ F.OnWay p x) :
    ¬ F.OnWay f x := by
  intro hw
  rcases Relation.ReflTransGen.cases_head hw with e | ⟨q, hq, hw⟩
  · exact hne e
  · rw [h] at hq; cases hq; exact hp hw

/-- The example history meets the hypothesis of C18. -/
theorem exOps_valid : Forest.Valid 4 Forest.init exOps := by
  have s : ∀ {a : Nat} {b : Option Nat}, b = some a → b ≠ none := fun h h' => by rw [h] at h'; cases h'
  refine ⟨⟨by decide, by decide, rfl, not_onWay_root rfl (by decide)⟩, ⟨by decide, by decide, rfl, ?_⟩,
    (by decide : 1 < 4), (by decide : 2 < 4), ⟨by decide, by decide, rfl, not_onWay_root rfl (by decide)⟩, (by decide : 2 < 4),
    ⟨by decide, s (a := 1) rfl⟩, ⟨by decide, s (a := 0) rfl⟩, (by decide : 2 < 4), ⟨by decide, by decide, rfl, ?_⟩,
    (by decide : 2 < 4), ⟨by decide, s (a := 1) rfl⟩, trivial⟩
  · exact not_onWay_step (p := 0) rfl (by decide) (not_onWay_root rfl (by decide))
  · exact not_onWay_step (p := 0) rfl (by decide) (not_onWay_root rfl (by decide))

/-- and the hypotheses of C19 and of both theorems on C20: after it, 2 has the parent 1, and 0 is a root -/
example : ∃ as F, Forest.History 4 Forest.init exOps as F ∧ F.par 2 ≠ none ∧ F.par 0 = none := by
  obtain ⟨as, h, F, -, e⟩ := C18_link_cut_tree_is_forest 4 exOps exOps_valid
  refine ⟨as, F, e, ?_⟩
  rw [history_final e]
  exact ⟨fun h => absurd (show some 1 = none from h) (by decide), rfl⟩

/-- and those of `C20_set_fa_assert_detects`: with 1 below 0, the node 2 may be put below 1 -/
example : ∃ as F, Forest.History 3 Forest.init ([.setFa 1 0, .findRoot 1] : List (ForestOp ℚ)) as F ∧ F.Pre 3 (.setFa 2 1) := by
  obtain ⟨as, h, F, -, e⟩ := C18_link_cut_tree_is_forest 3 ([.setFa 1 0, .findRoot 1] : List (ForestOp ℚ))
    ⟨⟨by decide, by decide, rfl, not_onWay_root rfl (by decide)⟩, (by decide : 1 < 3), trivial⟩
  refine ⟨as, F, e, ?_⟩
  rw [history_final e]
  exact ⟨by decide, by decide, rfl, not_onWay_step (p := 0) rfl (by decide) (not_onWay_root rfl (by decide))⟩

/-- C20, limits of the assertion. In `set_fa` it does not detect every wrong call: at a node which is not a root, but on the
access path of its root, the call is accepted and the old parent is lost. -/
theorem C20_set_fa_assert_incomplete : ∃ (ops : List (ForestOp ℚ)) (as : List (ForestAns ℚ)) (F : Forest ℚ) (h h' : Heap ℚ)
    (as' : List (ForestAns ℚ)), Forest.History 3 Forest.init ops as F ∧ F.par 1 = some 0 ∧
      lctRun 10 (lctInit 3) ops = .ok (as', h) ∧ LCT.setFa 10 h 1 2 = .ok h' := by
  have valid : Forest.Valid 3 Forest.init ([.setFa 1 0, .findRoot 1] : List (ForestOp ℚ)) :=
    ⟨⟨by decide, by decide, rfl, not_onWay_root rfl (by decide)⟩, (by decide : 1 < 3), trivial⟩
  obtain ⟨as, -, F, -, hist⟩ := C18_link_cut_tree_is_forest 3 _ valid
  have hF : F.par 1 = some 0 := by rw [history_final hist]; rfl
  have run : (match lctRun 10 (lctInit 3 : Heap ℚ) [.setFa 1 0, .findRoot 1] with
      | .ok (_, h) => (match LCT.setFa 10 h 1 2 with
        | .ok _ => true
        | .error _ => false)
      | .error _ => false) = true := by decide +kernel
  split at run
  · rename_i as' h e1
    split at run
    · rename_i h' e2
      exact ⟨_, as, F, h, h', as', hist, hF, e1, e2⟩
    · cases run
  · cases run

/-- `C18_link_cut_tree_is_forest` for the example history. -/
example := C18_link_cut_tree_is_forest 4 exOps exOps_valid

end AHO.Props
