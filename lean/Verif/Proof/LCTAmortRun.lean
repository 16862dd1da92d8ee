import Verif.Proof.LCTAmortOps
import Verif.Proof.LCTCost
import Verif.Props.Structures
/-!
# Amortised number of steps of sequences of operations
-/

namespace AHO.LCT
open AHO T
set_option linter.unusedSectionVars false

variable {D : Type} [Add D] [Zero D] [BEq D] [LT D] [LE D] [DecidableLT D] [DecidableLE D]

/-- the fresh nodes -/
theorem sinv_init (n : Nat) : SInv (Vec.replicate n (initNode : LNode D)) (fun _ => none) (fun v => node nil v nil) := by
  refine ⟨fun v hv => ⟨by simp, ?_, by simp, by simp, ?_⟩, (fun v u h _ => by cases h), fun v hv => ?_⟩
  · intro u hu
    have : u = v := by simpa using hu
    rw [this]
  · exact ⟨hv, by simp [Vec.replicate, initNode], by simp [Vec.replicate, initNode], by simp [Vec.replicate, initNode], trivial, trivial⟩
  · rw [Relation.transGen_iff] at hv
    rcases hv with hv | ⟨c, -, hv⟩ <;> cases hv

theorem pot_init (n : Nat) : pot n (siz n fun _ => none) (fun v => node nil v nil) = 0 := by
  refine Finset.sum_eq_zero fun v hv => ?_
  rw [Finset.mem_range] at hv
  have h1 : siz n (fun _ => none) v = 1 := by
    classical
    unfold siz
    rw [Finset.card_eq_one]
    refine ⟨v, ?_⟩
    ext u
    simp only [Finset.mem_filter, Finset.mem_range, Finset.mem_singleton]
    constructor
    · rintro ⟨-, h⟩
      rcases h.cases_head with h | ⟨c, hc, -⟩
      · exact h
      · cases hc
    · rintro rfl
      exact ⟨hv, .refl⟩
  have : wt (siz n fun _ => none) [v] v = 1 := by simp [wt, nxR, hdR, h1]
  simp [potAt, phiR, phi, sz, this]

theorem getMinLoopC_ptrs : ∀ (fuel : Nat) {h h' : Heap D} {p : Nat} {ret r : D × Option Nat} {k : Nat},
    getMinLoopC fuel h p ret = .ok (k, r, h') → Ptrs h h' := by
  intro fuel
  induction fuel with
  | zero => intro h h' p ret r k e; cases e
  | succ fuel ih =>
    intro h h' p ret r k e
    rw [getMinLoopC] at e
    obtain ⟨h1, e1, e⟩ := bind_ok e
    obtain ⟨n, e2, e⟩ := bind_ok e
    refine (pushDown_ptrs e1).trans ?_
    have key : ∀ ret : D × Option Nat, (match n.ch0 with
          | none => .ok (1, ret, h1)
          | some c => do
            let (k, r) ← getMinLoopC fuel h1 c (if n.val ≤ ret.1 then (n.val, some p) else ret)
            .ok (k + 1, r)) = Except.ok (ε := Err) (k, r, h') → Ptrs h1 h' := by
      intro ret e
      cases hc : n.ch0 with
      | none => simp only [hc] at e; cases e; exact .refl _
      | some c =>
        simp only [hc] at e
        obtain ⟨⟨k1, r1, h2⟩, e3, e⟩ := bind_ok e
        cases e
        exact ih e3
    cases hc : n.ch1 with
    | none => simp only [hc, ok_bind] at e; exact key _ e
    | some c =>
      simp only [hc] at e
      obtain ⟨nc, e3, e⟩ := bind_ok e
      exact key _ e

/-- the loop of `find_root` stays in the tree -/
theorem leftmostC_len {h : Heap D} : ∀ (fuel : Nat) {l : T} {x : Nat} {r : T} {f k v}, Shape h (node l x r) f →
    leftmostC h fuel x = .ok (k, v) → k ≤ l.io.length := by
  intro fuel
  induction fuel with
  | zero => intro l x r f k v _ e; cases e
  | succ fuel ih =>
    intro l x r f k v hs e
    rw [leftmostC] at e
    obtain ⟨n, e1, e⟩ := bind_ok e
    obtain ⟨-, rfl⟩ := rd_inv e1
    obtain ⟨s1, s2, s3, s4, s5, s6⟩ := hs
    rw [s3] at e
    cases l with
    | nil => cases e; exact Nat.zero_le _
    | node l y r =>
      simp only [rt_node] at e
      obtain ⟨⟨k1, v1⟩, e2, e⟩ := bind_ok e
      cases e
      have := ih s5 e2
      simp only [io_node, List.length_append, List.length_cons]
      omega

/-- the loop of `get_min_wtrbnr` stays in the tree -/
theorem getMinLoopC_len : ∀ (fuel : Nat) {h h' : Heap D} {l : T} {p : Nat} {r : T} {f k} {ret v : D × Option Nat}, Shape h (node l p r) f →
    getMinLoopC fuel h p ret = .ok (k, v, h') → k ≤ l.io.length + 1 := by
  intro fuel
  induction fuel with
  | zero => intro h h' l p r f k ret v _ e; cases e
  | succ fuel ih =>
    intro h h' l p r f k ret v hs e
    rw [getMinLoopC] at e
    obtain ⟨h1, e1, e⟩ := bind_ok e
    obtain ⟨n, e2, e⟩ := bind_ok e
    obtain ⟨-, rfl⟩ := rd_inv e2
    obtain ⟨s1, s2, s3, s4, s5, s6⟩ := hs.ptrs (pushDown_ptrs e1)
    have key : ∀ ret : D × Option Nat, (match (h1.get p).ch0 with
          | none => .ok (1, ret, h1)
          | some c => do
            let (k, r) ← getMinLoopC fuel h1 c (if (h1.get p).val ≤ ret.1 then ((h1.get p).val, some p) else ret)
            .ok (k + 1, r)) = Except.ok (ε := Err) (k, v, h') → k ≤ l.io.length + 1 := by
      intro ret e
      rw [s3] at e
      cases l with
      | nil => cases e; simp
      | node l y r =>
        simp only [rt_node] at e
        obtain ⟨⟨k1, r1, h2⟩, e3, e⟩ := bind_ok e
        cases e
        have := ih s5 e3
        simp only [io_node, List.length_append, List.length_cons]
        omega
    cases hc : (h1.get p).ch1 with
    | none => simp only [hc, ok_bind] at e; exact key _ e
    | some c =>
      simp only [hc] at e
      obtain ⟨nc, e3, e⟩ := bind_ok e
      exact key _ e

/-- a path has at most as many nodes as there are -/
theorem SInv.length_le {h : Heap D} {par tr} (I : SInv h par tr) {x A} (hx : x < h.size) (ht : tr x = node A x nil) : A.io.length + 1 ≤ h.size := by
  have L := I.loc x hx
  have h1 : (tr x).io.toFinset ⊆ Finset.range h.size := fun v hv => Finset.mem_range.2 (L.shape.lt (List.mem_toFinset.1 hv))
  have h2 := Finset.card_le_card h1
  rw [List.toFinset_card_of_nodup L.nodup, ht] at h2
  simpa using h2

end AHO.LCT

namespace AHO.Props
open AHO Spec LCT T
set_option linter.unusedSectionVars false

variable {K : Type} [AddCommGroup K] [LinearOrder K]

/-- an operation on the nodes of the program, with the steps of `splay` and `access` and those of the loops of `find_root` and
`get_min_wtrbnr` -/
def lctStepC (fuel : Nat) (h : Heap K) : ForestOp K → Res (Nat × Nat × ForestAns K × Heap K)
  | .findRoot x => do let (k, w, r, h) ← LCT.findRootC fuel h x; .ok (k, w, .node r, h)
  | .setFa x f => do let (k, h) ← LCT.setFaC fuel h x f; .ok (k, 0, .unit, h)
  | .cut x => do let (k, h) ← LCT.cutC fuel h x; .ok (k, 0, .unit, h)
  | .getVal x => do let (k, v, h) ← LCT.getValC fuel h x; .ok (k, 0, .value v, h)
  | .setVal x v => do let (k, h) ← LCT.setValC fuel h x v; .ok (k, 0, .unit, h)
  | .addVal x d => do let (k, h) ← LCT.addValWayToRootC fuel h x d; .ok (k, 0, .unit, h)
  | .getMin x => do
    let (k, w, (v, m), h) ← LCT.getMinC fuel h x
    let m ← LCT.deref m
    .ok (k, w, .min v m, h)

/-- a sequence of operations, with the two sums of the steps -/
def lctRunC (fuel : Nat) : Heap K → List (ForestOp K) → Res (Nat × Nat × List (ForestAns K) × Heap K)
  | h, [] => .ok (0, 0, [], h)
  | h, op :: ops => do
    let (k, w, a, h) ← lctStepC fuel h op
    let (k', w', as, h) ← lctRunC fuel h ops
    .ok (k + k', w + w', a :: as, h)

theorem er_bind2 {α β : Type} {x : Res (Nat × α)} {y : Res α} (h : Er x y) {f : Nat × α → Res (Nat × Nat × β)} {g : α → Res β}
    (hf : ∀ k a, (f (k, a)).map (·.2.2) = g a) : (x >>= f).map (·.2.2) = y >>= g := by
  cases x with
  | error e => cases h; rfl
  | ok a => cases h; exact hf a.1 a.2

theorem lctStepC_er (fuel : Nat) (h : Heap K) (op : ForestOp K) : (lctStepC fuel h op).map (·.2.2) = lctStep fuel h op := by
  cases op with
  | findRoot x =>
    have := findRootC_er fuel h x
    simp only [lctStepC, lctStep]
    cases hc : findRootC fuel h x with
    | error e => rw [hc] at this; rw [← show _ = LCT.findRoot fuel h x from this]; rfl
    | ok a => rw [hc] at this; rw [← show _ = LCT.findRoot fuel h x from this]; rfl
  | setFa x f => exact er_bind2 (setFaC_er fuel h x f) fun _ _ => rfl
  | cut x => exact er_bind2 (cutC_er fuel h x) fun _ _ => rfl
  | getVal x => exact er_bind2 (getValC_er fuel h x) fun _ _ => rfl
  | setVal x v => exact er_bind2 (setValC_er fuel h x v) fun _ _ => rfl
  | addVal x d => exact er_bind2 (addValWayToRootC_er fuel h x d) fun _ _ => rfl
  | getMin x =>
    have := getMinC_er fuel h x
    simp only [lctStepC, lctStep]
    cases hc : getMinC fuel h x with
    | error e => rw [hc] at this; rw [← show _ = LCT.getMin fuel h x from this]; rfl
    | ok a =>
      rw [hc] at this; rw [← show _ = LCT.getMin fuel h x from this]
      obtain ⟨k, w, ⟨v, m⟩, h'⟩ := a
      cases m <;> rfl

/-- the counters do not change what the program does -/
theorem lctRunC_er (fuel : Nat) : ∀ (ops : List (ForestOp K)) (h : Heap K), (lctRunC fuel h ops).map (·.2.2) = lctRun fuel h ops := by
  intro ops
  induction ops with
  | nil => intro h; rfl
  | cons op ops ih =>
    intro h
    simp only [lctRunC, lctRun]
    rw [← lctStepC_er]
    cases lctStepC fuel h op with
    | error e => rfl
    | ok a =>
      obtain ⟨k, w, a, h'⟩ := a
      simp only [ok_bind, Except.map]
      rw [← ih h']
      cases lctRunC fuel h' ops <;> rfl

/-- what an operation does after its `access` -/
theorem lctStepC_walk {fuel n : Nat} {h h' : Heap K} {F : Forest K} {op : ForestOp K} {x k w : Nat} {a : ForestAns K} (hop : Forest.Walks x op)
    (pre : F.Pre n op) (e : lctStepC fuel h op = .ok (k, w, a, h')) :
    x < n ∧ ∃ h1, accessC fuel h x = .ok (k, h1) ∧ ∀ tr A, h1.size = n → SInv h1 F.par tr → tr x = node A x nil →
      (node A x nil).io.head?.bind F.par = none → w ≤ n ∧ ∃ tr', h'.size = n ∧ SInv h' (F.apply op).par tr' ∧
        pot n (siz n (F.apply op).par) tr' ≤ pot n (siz n F.par) tr := by
  cases op with
  | setFa y f => cases hop
  | getVal y => cases hop
  | setVal y v => cases hop
  | findRoot y =>
    obtain rfl : y = x := hop
    refine ⟨pre, ?_⟩
    simp only [lctStepC] at e
    obtain ⟨⟨k1, w1, r, h1⟩, e1, e⟩ := bind_ok e
    cases e
    unfold findRootC at e1
    obtain ⟨⟨k2, h2⟩, e2, e1⟩ := bind_ok e1
    obtain ⟨⟨k3, r3⟩, e3, e1⟩ := bind_ok e1
    cases e1
    refine ⟨_, e2, fun tr A q1 q2 q3 _ => ⟨?_, tr, q1, q2, le_rfl⟩⟩
    have hx : y < h1.size := by rw [q1]; exact pre
    have hsh := (q2.loc y hx).shape
    rw [q3] at hsh
    have := leftmostC_len _ hsh e3
    have := q2.length_le hx q3
    show w1 ≤ n
    omega
  | addVal y d =>
    obtain rfl : y = x := hop
    refine ⟨pre, ?_⟩
    simp only [lctStepC] at e
    obtain ⟨⟨k1, h1⟩, e1, e⟩ := bind_ok e
    cases e
    unfold addValWayToRootC at e1
    obtain ⟨⟨k2, h2⟩, e2, e1⟩ := bind_ok e1
    obtain ⟨h3, e3, e1⟩ := bind_ok e1
    cases e1
    have pp := updateAdd_ptrs e3
    exact ⟨_, e2, fun tr A q1 q2 _ _ => ⟨Nat.zero_le _, tr, by rw [pp.1]; exact q1, q2.ptrs pp, le_rfl⟩⟩
  | getMin y =>
    obtain rfl : y = x := hop
    refine ⟨pre.1, ?_⟩
    simp only [lctStepC] at e
    obtain ⟨⟨k1, w1, ⟨v, m⟩, h1⟩, e1, e⟩ := bind_ok e
    obtain ⟨m', -, e⟩ := bind_ok e
    cases e
    unfold getMinC at e1
    obtain ⟨⟨k2, h2⟩, e2, e1⟩ := bind_ok e1
    obtain ⟨nn, e3, e1⟩ := bind_ok e1
    obtain ⟨⟨m4, r4, h4⟩, e4, e1⟩ := bind_ok e1
    cases e1
    have pp := getMinLoopC_ptrs _ e4
    refine ⟨_, e2, fun tr A q1 q2 q3 _ => ⟨?_, tr, by rw [pp.1]; exact q1, q2.ptrs pp, le_rfl⟩⟩
    have hx : y < h2.size := by rw [q1]; exact pre.1
    have hsh := (q2.loc y hx).shape
    rw [q3] at hsh
    have := getMinLoopC_len _ hsh e4
    have := q2.length_le hx q3
    show w1 ≤ n
    omega
  | cut y =>
    obtain rfl : y = x := hop
    obtain ⟨hx, hpar⟩ := pre
    refine ⟨hx, ?_⟩
    simp only [lctStepC] at e
    obtain ⟨⟨k1, h1⟩, e1, e⟩ := bind_ok e
    cases e
    unfold cutC at e1
    obtain ⟨⟨k2, h2⟩, e2, e1⟩ := bind_ok e1
    obtain ⟨nn, e3, e1⟩ := bind_ok e1
    obtain ⟨hy2, rfl⟩ := rd_inv e3
    refine ⟨h2, ?_⟩
    cases hc : (h2.get y).ch0 with
    | none => simp only [hc] at e1; cases e1
    | some c =>
    simp only [hc] at e1
    obtain ⟨nc, e4, e1⟩ := bind_ok e1
    obtain ⟨hc2, rfl⟩ := rd_inv e4
    obtain ⟨h3, e5, e1⟩ := bind_ok e1
    obtain ⟨n5, e6, e1⟩ := bind_ok e1
    obtain ⟨hy3, rfl⟩ := rd_inv e6
    obtain ⟨h4, e7, e1⟩ := bind_ok e1
    obtain ⟨h5, e8, e1⟩ := bind_ok e1
    cases e1
    rw [Vec.wr_ok _ hc2] at e5
    cases e5
    rw [Vec.wr_ok _ hy3] at e7
    cases e7
    have pp := pushUp_ptrs e8
    refine ⟨e2, fun tr A q1 q2 q3 q4 => ?_⟩
    obtain ⟨p, hp⟩ := Option.ne_none_iff_exists'.1 hpar
    have hsh := (q2.loc y hy2).shape
    have hnd := (q2.loc y hy2).nodup
    rw [q3] at hsh hnd
    have hA : A.rt = some c := by rw [← hsh.2.2.1]; exact hc
    have hcy : c ≠ y := by
      rintro rfl
      exact (List.nodup_append.1 hnd).2.2 c (rt_mem hA) c (by simp) rfl
    obtain ⟨tr', r1, r2⟩ := q2.cutStep (h4 := h1) hy2 q3 q4 hp hA (by rw [pp.1]; rfl)
      ⟨by rw [(pp.2 y).1]; simp [Vec.set_get_ne _ _ (Ne.symm hcy)], by rw [(pp.2 y).2.1]; simp,
        by rw [(pp.2 y).2.2]; simp [Vec.set_get_ne _ _ (Ne.symm hcy)]⟩
      ⟨by rw [(pp.2 c).1]; simp [Vec.set_get_ne _ _ hcy], by rw [(pp.2 c).2.1]; simp [Vec.set_get_ne _ _ hcy],
        by rw [(pp.2 c).2.2]; simp [Vec.set_get_ne _ _ hcy]⟩
      fun k hk1 hk2 => SamePtr.trans (by rw [SamePtr, Vec.set_get_ne _ _ hk1, Vec.set_get_ne _ _ hk2]; exact ⟨rfl, rfl, rfl⟩) (pp.2 k)
    rw [q1] at r2
    have : (F.apply (.cut y)).par = Function.update F.par y none := by
      funext v; simp only [Forest.apply, Function.update_apply]
    rw [this]
    exact ⟨Nat.zero_le _, tr', by rw [pp.1]; exact q1, r1, r2⟩

/-- an operation other than `set_fa` -/
theorem lctStepC_amort {fuel n : Nat} {h h' : Heap K} {F : Forest K} {op : ForestOp K} {k w : Nat} {a : ForestAns K}
    (hop : ∀ x f, op ≠ .setFa x f) (hs : h.size = n) (pre : F.Pre n op) {tr} (I : SInv h F.par tr)
    (e : lctStepC fuel h op = .ok (k, w, a, h')) :
    w ≤ n ∧ ∃ tr', h'.size = n ∧ SInv h' (F.apply op).par tr' ∧
      (k : ℝ) + 6 * (pot n (siz n (F.apply op).par) tr' - pot n (siz n F.par) tr) ≤ 42 * lg (n + 1) + 11 := by
  have walk : ∀ x, Forest.Walks x op → w ≤ n ∧ ∃ tr', h'.size = n ∧ SInv h' (F.apply op).par tr' ∧
      (k : ℝ) + 6 * (pot n (siz n (F.apply op).par) tr' - pot n (siz n F.par) tr) ≤ 42 * lg (n + 1) + 11 := by
    intro x hx
    obtain ⟨hxn, h1, e1, post⟩ := lctStepC_walk hx pre e
    obtain ⟨tr1, A, s1, I1, t1, t2, b1⟩ := I.access (by omega) e1
    rw [hs] at s1 b1
    obtain ⟨hw, tr2, s2, I2, b2⟩ := post tr1 A s1 I1 t1 t2
    exact ⟨hw, tr2, s2, I2, by linarith⟩
  have lpos : (0 : ℝ) ≤ 42 * lg (n + 1) + 11 := by
    have := lg_nonneg (show 1 ≤ n + 1 by omega)
    linarith
  cases op with
  | setFa x f => exact absurd rfl (hop x f)
  | findRoot x => exact walk x rfl
  | cut x => exact walk x rfl
  | addVal x d => exact walk x rfl
  | getMin x => exact walk x rfl
  | getVal x =>
    simp only [lctStepC] at e
    obtain ⟨⟨k1, v, h1⟩, e1, e⟩ := bind_ok e
    cases e
    unfold getValC at e1
    obtain ⟨r, -, e1⟩ := bind_ok e1
    cases r with
    | true =>
      simp only [Bool.not_true, Bool.false_eq_true, if_false, ok_bind] at e1
      obtain ⟨n1, -, e1⟩ := bind_ok e1
      cases e1
      exact ⟨Nat.zero_le _, tr, hs, I, by simpa [Forest.apply] using lpos⟩
    | false =>
      simp only [Bool.not_false, if_true] at e1
      obtain ⟨⟨k2, h2⟩, e2, e1⟩ := bind_ok e1
      obtain ⟨n1, -, e1⟩ := bind_ok e1
      cases e1
      obtain ⟨tr1, A, s1, I1, t1, t2, b1⟩ := I.access (by rw [hs]; exact pre) e2
      rw [hs] at s1 b1
      exact ⟨Nat.zero_le _, tr1, s1, I1, b1⟩
  | setVal x c =>
    simp only [lctStepC] at e
    obtain ⟨⟨k1, h1⟩, e1, e⟩ := bind_ok e
    cases e
    unfold setValC at e1
    obtain ⟨r, -, e1⟩ := bind_ok e1
    have fin : ∀ {h2 : Heap K} {k2 : Nat}, (do
        let n ← h2.rd x
        let h ← h2.wr x { n with val := c }
        let h ← pushUp h x
        Except.ok (k2, h)) = Except.ok (ε := Err) (k1, h1) → k2 = k1 ∧ Ptrs h2 h1 := by
      intro h2 k2 e
      obtain ⟨n1, r1, e⟩ := bind_ok e
      obtain ⟨h3, r2, e⟩ := bind_ok e
      obtain ⟨h4, r3, e⟩ := bind_ok e
      cases e
      obtain ⟨hx, rfl⟩ := rd_inv r1
      exact ⟨rfl, (Ptrs.wr hx r2 ⟨rfl, rfl, rfl⟩).trans (pushUp_ptrs r3)⟩
    cases r with
    | true =>
      simp only [Bool.not_true, Bool.false_eq_true, if_false, ok_bind] at e1
      obtain ⟨rfl, pp⟩ := fin e1
      exact ⟨Nat.zero_le _, tr, by rw [pp.1]; exact hs, I.ptrs pp, by simpa [Forest.apply] using lpos⟩
    | false =>
      simp only [Bool.not_false, if_true] at e1
      obtain ⟨⟨k2, h2⟩, e2, e1⟩ := bind_ok e1
      obtain ⟨rfl, pp⟩ := fin e1
      obtain ⟨tr1, A, s1, I1, t1, t2, b1⟩ := I.access (by rw [hs]; exact pre) e2
      rw [hs] at s1 b1
      exact ⟨Nat.zero_le _, tr1, by rw [pp.1]; exact s1, I1.ptrs pp, b1⟩

theorem lctRunC_amort {fuel n : Nat} : ∀ (m : Nat) (ops : List (ForestOp K)), ops.length ≤ m → ∀ {h h' : Heap K} {F : Forest K} {k w : Nat}
    {as : List (ForestAns K)}, Forest.Linked ops → h.size = n → F.Valid n ops → ∀ {tr}, SInv h F.par tr →
    lctRunC fuel h ops = .ok (k, w, as, h') →
    w ≤ n * ops.length ∧ (k : ℝ) ≤ (42 * lg (n + 1) + 11) * ops.length + 6 * pot n (siz n F.par) tr := by
  intro m
  induction m using Nat.strong_induction_on with
  | _ m IH =>
  intro ops hm h h' F k w as hl hs valid tr I e
  have lpos : 0 ≤ lg (n + 1) := lg_nonneg (by omega)
  have link : ∀ x f ops', Forest.Linked (.setFa x f :: ops') → ops = .setFa x f :: ops' →
      w ≤ n * ops.length ∧ (k : ℝ) ≤ (42 * lg (n + 1) + 11) * ops.length + 6 * pot n (siz n F.par) tr := by
    intro x f ops' hl hops
    subst hops
    simp only [lctRunC] at e
    obtain ⟨⟨k1, w1, a1, h1⟩, e1, e⟩ := bind_ok e
    obtain ⟨⟨k2, w2, a2, h2⟩, e2, e⟩ := bind_ok e
    cases e
    obtain ⟨⟨p1, p2, p3, p4⟩, v2⟩ := valid
    simp only [lctStepC] at e1
    obtain ⟨⟨k3, h3⟩, e3, e1⟩ := bind_ok e1
    cases e1
    have hpar : (F.apply (.setFa x f)).par = Function.update F.par x (some f) := by
      funext v; simp only [Forest.apply, Function.update_apply]
    obtain ⟨tr1, b, s1, I1, t1, b1, nn⟩ := I.setFa (by omega) (by omega) p3 p4 e3
    rw [hs] at s1 b1 nn
    match ops', hl with
    | [], _ =>
      cases e2
      refine ⟨Nat.zero_le _, ?_⟩
      push_cast
      simp only [List.length_cons, List.length_nil]
      push_cast
      linarith
    | op :: ops, hl =>
      obtain ⟨hw, hl⟩ := hl
      simp only [lctRunC] at e2
      obtain ⟨⟨k4, w4, a4, h4⟩, e4, e2⟩ := bind_ok e2
      obtain ⟨⟨k5, w5, a5, h5⟩, e5, e2⟩ := bind_ok e2
      cases e2
      obtain ⟨v2, v3⟩ := v2
      obtain ⟨hxn, h6, e6, post⟩ := lctStepC_walk hw v2 e4
      rw [hpar] at post
      obtain ⟨tr2, A, s2, I2, t2, t3, b2⟩ := SInv.linkAccess (par := F.par) I.acyc (by rw [s1, ← hs]; exact I.range) I1 (by omega) (by omega) p3 p4 t1 e6
      rw [s1] at s2 b2
      obtain ⟨hw4, tr3, s3, I3, b3⟩ := post tr2 A s2 I2 t2 t3
      obtain ⟨ihw, ih⟩ := IH ops.length (by simp only [List.length_cons] at hm; omega) ops le_rfl hl s3 v3 I3 e5
      simp only [List.length_cons]
      refine ⟨by rw [Nat.mul_succ, Nat.mul_succ]; omega, ?_⟩
      push_cast at ih ⊢
      linarith
  match ops, hl with
  | [], _ =>
    cases e
    have := I.pot_nonneg
    rw [hs] at this
    simpa using this
  | op :: ops, hl =>
    have hop : (∃ x f, op = .setFa x f) ∨ ((∀ x f, op ≠ .setFa x f) ∧ Forest.Linked ops) := by
      cases op with
      | setFa x f => exact .inl ⟨x, f, rfl⟩
      | _ => exact .inr ⟨nofun, hl⟩
    rcases hop with ⟨x, f, rfl⟩ | ⟨hop, hl⟩
    · exact link x f ops hl rfl
    · simp only [lctRunC] at e
      obtain ⟨⟨k1, w1, a1, h1⟩, e1, e⟩ := bind_ok e
      obtain ⟨⟨k2, w2, a2, h2⟩, e2, e⟩ := bind_ok e
      cases e
      obtain ⟨hw1, tr1, s1, I1, b1⟩ := lctStepC_amort hop hs valid.1 I e1
      obtain ⟨ihw, ih⟩ := IH ops.length (by simp only [List.length_cons] at hm; omega) ops le_rfl hl s1 valid.2 I1 e2
      simp only [List.length_cons]
      refine ⟨by rw [Nat.mul_succ]; omega, ?_⟩
      push_cast at ih ⊢
      linarith

end AHO.Props
