import Verif.Proof.FlowCost
import Verif.Proof.LCTAmortRun
import Verif.Proof.FlowSteps
/-!
# Amortised number of steps of the operations of `Flow`
-/

namespace AHO.LCT
open AHO T
set_option linter.unusedSectionVars false

variable {D : Type} [Add D] [Zero D] [BEq D] [LT D] [LE D] [DecidableLT D] [DecidableLE D]
variable {h h' : Heap D} {par : Nat → Option Nat} {tr : Nat → T} {fuel x k w : Nat}

/-- six times the potential -/
noncomputable def pot6 (N : Nat) (par : Nat → Option Nat) (tr : Nat → T) : ℝ := 6 * pot N (siz N par) tr

/-- the amortised cost of an operation on `N` nodes -/
noncomputable def opA (N : Nat) : ℝ := 42 * lg (N + 1) + 11

theorem opA_nonneg (N : Nat) : 0 ≤ opA N := by
  have := lg_nonneg (show 1 ≤ N + 1 by omega)
  unfold opA
  linarith

theorem splayC_lt (e : splayC fuel h x = .ok (k, h')) : x < h.size := by
  unfold splayC at e
  obtain ⟨⟨k1, h1⟩, e1, -⟩ := bind_ok e
  cases fuel with
  | zero => cases e1
  | succ fuel =>
    rw [pushDownFromRootC] at e1
    obtain ⟨r, e2, -⟩ := bind_ok e1
    unfold isRoot at e2
    obtain ⟨n, e3, -⟩ := bind_ok e2
    exact (rd_inv e3).1

theorem accessC_lt (e : accessC fuel h x = .ok (k, h')) : x < h.size := by
  unfold accessC at e
  obtain ⟨⟨k1, h1⟩, e1, -⟩ := bind_ok e
  cases fuel with
  | zero => cases e1
  | succ fuel =>
    rw [accessLoopC] at e1
    simp only [] at e1
    obtain ⟨⟨k0, h1⟩, e3, -⟩ := bind_ok e1
    exact splayC_lt e3

/-- what an operation which does not change the forest costs -/
def OpOK (h h' : Heap D) (par : Nat → Option Nat) (tr : Nat → T) (k w : Nat) : Prop :=
  ∃ tr', h'.size = h.size ∧ SInv h' par tr' ∧ (k : ℝ) + pot6 h.size par tr' ≤ opA h.size + pot6 h.size par tr ∧ w ≤ h.size

theorem SInv.accessOp (I : SInv h par tr) (e : accessC fuel h x = .ok (k, h')) :
    ∃ tr' A, h'.size = h.size ∧ SInv h' par tr' ∧ tr' x = node A x nil ∧ (node A x nil).io.head?.bind par = none ∧
      (k : ℝ) + pot6 h.size par tr' ≤ opA h.size + pot6 h.size par tr := by
  obtain ⟨tr', A, h1, h2, h3, h4, h5⟩ := I.access (accessC_lt e) e
  exact ⟨tr', A, h1, h2, h3, h4, by unfold pot6 opA; linarith⟩

theorem SInv.findRootOp (I : SInv h par tr) {r} (e : findRootC fuel h x = .ok (k, w, r, h')) : OpOK h h' par tr k w := by
  unfold findRootC at e
  obtain ⟨⟨k2, h2⟩, e2, e⟩ := bind_ok e
  obtain ⟨⟨k3, r3⟩, e3, e⟩ := bind_ok e
  cases e
  obtain ⟨tr', A, h1, h2, h3, h4, h5⟩ := I.accessOp e2
  refine ⟨tr', h1, h2, h5, ?_⟩
  have hx := accessC_lt e2
  rw [← h1] at hx
  have hsh := (h2.loc x hx).shape
  rw [h3] at hsh
  have q1 := leftmostC_len _ hsh e3
  have q2 := h2.length_le hx h3
  omega

theorem SInv.getMinOp (I : SInv h par tr) {r} (e : getMinC fuel h x = .ok (k, w, r, h')) : OpOK h h' par tr k w := by
  unfold getMinC at e
  obtain ⟨⟨k2, h2⟩, e2, e⟩ := bind_ok e
  obtain ⟨nn, e3, e⟩ := bind_ok e
  obtain ⟨⟨m4, r4, h4⟩, e4, e⟩ := bind_ok e
  cases e
  have pp := getMinLoopC_ptrs _ e4
  obtain ⟨tr', A, h1, h2, h3, h4, h5⟩ := I.accessOp e2
  refine ⟨tr', by rw [pp.1]; exact h1, h2.ptrs pp, h5, ?_⟩
  have hx := accessC_lt e2
  rw [← h1] at hx
  have hsh := (h2.loc x hx).shape
  rw [h3] at hsh
  have q1 := getMinLoopC_len _ hsh e4
  have q2 := h2.length_le hx h3
  omega

theorem SInv.addValOp (I : SInv h par tr) {d : D} (e : addValWayToRootC fuel h x d = .ok (k, h')) : OpOK h h' par tr k 0 := by
  unfold addValWayToRootC at e
  obtain ⟨⟨k2, h2⟩, e2, e⟩ := bind_ok e
  obtain ⟨h3, e3, e⟩ := bind_ok e
  cases e
  have pp := updateAdd_ptrs e3
  obtain ⟨tr', A, h1, h2, h3, h4, h5⟩ := I.accessOp e2
  exact ⟨tr', by rw [pp.1]; exact h1, h2.ptrs pp, h5, Nat.zero_le _⟩

theorem OpOK.refl (I : SInv h par tr) : OpOK h h par tr 0 0 :=
  ⟨tr, rfl, I, by have := opA_nonneg h.size; simp only [Nat.cast_zero]; linarith, Nat.zero_le _⟩

theorem SInv.getValOp (I : SInv h par tr) {v : D} (e : getValC fuel h x = .ok (k, v, h')) : OpOK h h' par tr k 0 := by
  unfold getValC at e
  obtain ⟨r, -, e⟩ := bind_ok e
  cases r with
  | true =>
    simp only [Bool.not_true, Bool.false_eq_true, if_false, ok_bind] at e
    obtain ⟨n1, -, e⟩ := bind_ok e
    cases e
    exact .refl I
  | false =>
    simp only [Bool.not_false, if_true] at e
    obtain ⟨⟨k2, h2⟩, e2, e⟩ := bind_ok e
    obtain ⟨n1, -, e⟩ := bind_ok e
    cases e
    obtain ⟨tr', A, h1, h2, h3, h4, h5⟩ := I.accessOp e2
    exact ⟨tr', h1, h2, h5, Nat.zero_le _⟩

theorem OpOK.ptrs {h1 : Heap D} (o : OpOK h h1 par tr k w) (pp : Ptrs h1 h') : OpOK h h' par tr k w := by
  obtain ⟨tr', a1, a2, a3, a4⟩ := o
  exact ⟨tr', by rw [pp.1]; exact a1, a2.ptrs pp, a3, a4⟩

theorem SInv.setValOp (I : SInv h par tr) {c : D} (e : setValC fuel h x c = .ok (k, h')) : OpOK h h' par tr k 0 := by
  unfold setValC at e
  obtain ⟨r, -, e⟩ := bind_ok e
  have fin : ∀ {h2 : Heap D} {k2 : Nat}, (do
      let n ← h2.rd x
      let h ← h2.wr x { n with val := c }
      let h ← pushUp h x
      Except.ok (k2, h)) = Except.ok (ε := Err) (k, h') → k2 = k ∧ Ptrs h2 h' := by
    intro h2 k2 e
    obtain ⟨n1, r1, e⟩ := bind_ok e
    obtain ⟨h3, r2, e⟩ := bind_ok e
    obtain ⟨h4, r3, e⟩ := bind_ok e
    cases e
    obtain ⟨hx, rfl⟩ := rd_inv r1
    exact ⟨rfl, (Ptrs.wr hx r2 ⟨rfl, rfl, rfl⟩).trans (pushUp_ptrs r3)⟩
  cases r with
  | true =>
    simp only [Bool.not_true, Bool.false_eq_true, if_false, ok_bind] at e
    obtain ⟨rfl, pp⟩ := fin e
    exact (OpOK.refl I).ptrs pp
  | false =>
    simp only [Bool.not_false, if_true] at e
    obtain ⟨⟨k2, h2⟩, e2, e⟩ := bind_ok e
    obtain ⟨rfl, pp⟩ := fin e
    obtain ⟨tr', A, h1, h2, h3, h4, h5⟩ := I.accessOp e2
    exact OpOK.ptrs ⟨tr', h1, h2, h5, Nat.zero_le _⟩ pp

theorem SInv.cutOp (I : SInv h par tr) (e : cutC fuel h x = .ok (k, h')) :
    x < h.size ∧ par x ≠ none ∧ ∃ tr', h'.size = h.size ∧ SInv h' (Function.update par x none) tr' ∧
      (k : ℝ) + pot6 h.size (Function.update par x none) tr' ≤ opA h.size + pot6 h.size par tr := by
  unfold cutC at e
  obtain ⟨⟨k2, h2⟩, e2, e1⟩ := bind_ok e
  obtain ⟨nn, e3, e1⟩ := bind_ok e1
  obtain ⟨hy2, rfl⟩ := rd_inv e3
  cases hc : (h2.get x).ch0 with
  | none => simp only [hc] at e1; cases e1
  | some c =>
  simp only [hc] at e1
  obtain ⟨nc, e4, e1⟩ := bind_ok e1
  obtain ⟨hc2, rfl⟩ := rd_inv e4
  obtain ⟨h3, e5, e1⟩ := bind_ok e1
  obtain ⟨n5, e6, e1⟩ := bind_ok e1
  obtain ⟨hy3, rfl⟩ := rd_inv e6
  obtain ⟨h4, e7, e1⟩ := bind_ok e1
  obtain ⟨h5, e8, e1⟩ := bind_ok e1
  cases e1
  rw [Vec.wr_ok _ hc2] at e5
  cases e5
  rw [Vec.wr_ok _ hy3] at e7
  cases e7
  have pp := pushUp_ptrs e8
  obtain ⟨tr1, A, q1, q2, q3, q4, b1⟩ := I.accessOp e2
  have L := q2.loc x hy2
  have hsh := L.shape
  have hnd := L.nodup
  have hch := L.chain
  rw [q3] at hsh hnd hch
  have hA : A.rt = some c := by rw [← hsh.2.2.1]; exact hc
  have hcy : c ≠ x := by
    rintro rfl
    exact (List.nodup_append.1 hnd).2.2 c (rt_mem hA) c (by simp) rfl
  have hpar : ∃ p, par x = some p := by
    rw [io_node, io_nil, List.isChain_append] at hch
    have hne : A.io ≠ [] := by
      intro h0
      have := rt_mem hA
      rw [h0] at this
      simp at this
    exact ⟨_, hch.2.2 _ (List.getLast?_eq_some_getLast hne) x (by simp)⟩
  obtain ⟨p, hp⟩ := hpar
  refine ⟨accessC_lt e2, by rw [hp]; simp, ?_⟩
  obtain ⟨tr', r1, r2⟩ := q2.cutStep (h4 := h') hy2 q3 q4 hp hA (by rw [pp.1]; rfl)
    ⟨by rw [(pp.2 x).1]; simp [Vec.set_get_ne _ _ (Ne.symm hcy)], by rw [(pp.2 x).2.1]; simp,
      by rw [(pp.2 x).2.2]; simp [Vec.set_get_ne _ _ (Ne.symm hcy)]⟩
    ⟨by rw [(pp.2 c).1]; simp [Vec.set_get_ne _ _ hcy], by rw [(pp.2 c).2.1]; simp [Vec.set_get_ne _ _ hcy],
      by rw [(pp.2 c).2.2]; simp [Vec.set_get_ne _ _ hcy]⟩
    fun k hk1 hk2 => SamePtr.trans (by rw [SamePtr, Vec.set_get_ne _ _ hk1, Vec.set_get_ne _ _ hk2]; exact ⟨rfl, rfl, rfl⟩) (pp.2 k)
  rw [q1] at r2
  refine ⟨tr', by rw [pp.1]; exact q1, r1, ?_⟩
  unfold pot6 at b1 ⊢
  linarith

/-- `set_fa`, then `find_root` -/
theorem SInv.linkFindOp (I : SInv h par tr) {h1 : Heap D} {f k' r} (hf : f < h.size) (hp : par x = none) (hr : ¬ OnPath par f x)
    (e : setFaC fuel h x f = .ok (k, h1)) {fuel'} (e' : findRootC fuel' h1 x = .ok (k', w, r, h')) :
    x < h.size ∧ ∃ tr', h'.size = h.size ∧ SInv h' (Function.update par x (some f)) tr' ∧
      ((k + k' : Nat) : ℝ) + pot6 h.size (Function.update par x (some f)) tr' ≤ 2 * opA h.size + pot6 h.size par tr ∧ w ≤ h.size := by
  have hx : x < h.size := by
    unfold setFaC at e
    obtain ⟨⟨k0, h1⟩, e1, e⟩ := bind_ok e
    exact splayC_lt e1
  refine ⟨hx, ?_⟩
  obtain ⟨tr1, b, s1, I1, t1, b1, -⟩ := I.setFa hx hf hp hr e
  unfold findRootC at e'
  obtain ⟨⟨k2, h2⟩, e2, e'⟩ := bind_ok e'
  obtain ⟨⟨k3, r3⟩, e3, e'⟩ := bind_ok e'
  cases e'
  obtain ⟨tr2, A, s2, I2, t2, t3, b2⟩ := SInv.linkAccess (par := par) I.acyc (by rw [s1]; exact I.range) I1 (by rw [s1]; exact hx) (by rw [s1]; exact hf) hp hr t1 e2
  rw [s1] at s2 b2
  refine ⟨tr2, s2, I2, ?_, ?_⟩
  · have := lg_nonneg (show 1 ≤ h.size + 1 by omega)
    unfold pot6 opA
    push_cast
    linarith
  · rw [← s2] at hx
    have hsh := (I2.loc x hx).shape
    rw [t2] at hsh
    have q1 := leftmostC_len _ hsh e3
    have q2 := I2.length_le hx t2
    omega

end AHO.LCT

namespace AHO.Flow
open AHO Spec LCT
set_option linter.unusedSectionVars false

section
variable {D : Type} [Zero D] [One D] [Add D] [Sub D] [Neg D] [BEq D] [LT D] [LE D] [DecidableLT D] [DecidableLE D]
variable {s s' : Flow D} {tr : Nat → T} {imax : Int} {fuel p : Nat} {c : Cost}

/-- the number of nodes with a parent -/
def nr (s : Flow D) : Nat := ((Finset.range s.nodes.size).filter fun v => s.fa.get v ≠ none).card

/-- the potential -/
noncomputable def phi (s : Flow D) (tr : Nat → T) : ℝ := pot6 s.nodes.size s.fa.get tr + 4 * opA s.nodes.size * nr s

/-- From `s` to `s'` the program has taken `c`; the amortised costs are `a` operations, `w` walks and `i` iterations of other loops; `l` links
are made. -/
structure Spend (s s' : Flow D) (tr : Nat → T) (c : Cost) (a w : ℝ) (i l : Nat) : Prop where
  ce : s'.currentEdge = s.currentEdge
  g : s'.G = s.G
  sc : s'.scaling = s.scaling
  ep : s'.epsilon = s.epsilon
  it : c.iters = i
  ro : c.rounds = 0
  size : s'.nodes.size = s.nodes.size
  walk : (c.walk : ℝ) + s.nodes.size * nr s' ≤ w * s.nodes.size + s.nodes.size * nr s
  main : ∃ tr', LCT.SInv s'.nodes s'.fa.get tr' ∧ (c.steps : ℝ) + phi s' tr' ≤ a * opA s.nodes.size + phi s tr
  ev : c.evals + 2 * nr s' ≤ 2 * nr s + 2 * i + 4 * l

@[simp] theorem Cost.add_steps (a b : Cost) : (a + b).steps = a.steps + b.steps := rfl
@[simp] theorem Cost.add_walk (a b : Cost) : (a + b).walk = a.walk + b.walk := rfl
@[simp] theorem Cost.add_iters (a b : Cost) : (a + b).iters = a.iters + b.iters := rfl
@[simp] theorem Cost.add_rounds (a b : Cost) : (a + b).rounds = a.rounds + b.rounds := rfl
@[simp] theorem Cost.add_evals (a b : Cost) : (a + b).evals = a.evals + b.evals := rfl
@[simp] theorem Cost.zero_evals : (0 : Cost).evals = 0 := rfl
@[simp] theorem Cost.zero_steps : (0 : Cost).steps = 0 := rfl
@[simp] theorem Cost.zero_walk : (0 : Cost).walk = 0 := rfl
@[simp] theorem Cost.zero_iters : (0 : Cost).iters = 0 := rfl
@[simp] theorem Cost.zero_rounds : (0 : Cost).rounds = 0 := rfl

theorem Spend.trans {s1 s2 : Flow D} {c1 c2 : Cost} {a1 a2 w1 w2 : ℝ} {i1 i2 l1 l2 : Nat} (h1 : Spend s s1 tr c1 a1 w1 i1 l1)
    (h2 : ∀ tr1, LCT.SInv s1.nodes s1.fa.get tr1 → Spend s1 s2 tr1 c2 a2 w2 i2 l2) :
    Spend s s2 tr (c1 + c2) (a1 + a2) (w1 + w2) (i1 + i2) (l1 + l2) := by
  obtain ⟨tr1, m1, m2⟩ := h1.main
  have h2 := h2 tr1 m1
  obtain ⟨tr2, m3, m4⟩ := h2.main
  refine ⟨h2.ce.trans h1.ce, h2.g.trans h1.g, h2.sc.trans h1.sc, h2.ep.trans h1.ep, by rw [Cost.add_iters, h1.it, h2.it], by rw [Cost.add_rounds, h1.ro, h2.ro], h2.size.trans h1.size, ?_, ⟨tr2, m3, ?_⟩, ?_⟩
  · have q1 := h1.walk
    have q2 := h2.walk
    rw [h1.size] at q2
    rw [Cost.add_walk]
    push_cast
    linarith
  · rw [h1.size] at m4
    rw [Cost.add_steps]
    push_cast
    linarith
  · have q1 := h1.ev
    have q2 := h2.ev
    rw [Cost.add_evals]
    omega

theorem Spend.weaken {a a' w w' : ℝ} {i l : Nat} (h : Spend s s' tr c a w i l) (ha : a ≤ a') (hw : w ≤ w') : Spend s s' tr c a' w' i l := by
  obtain ⟨tr1, m1, m2⟩ := h.main
  refine ⟨h.ce, h.g, h.sc, h.ep, h.it, h.ro, h.size, h.walk.trans ?_, ⟨tr1, m1, m2.trans ?_⟩, h.ev⟩
  · have := mul_le_mul_of_nonneg_right hw (Nat.cast_nonneg (α := ℝ) s.nodes.size)
    linarith
  · have := mul_le_mul_of_nonneg_right ha (opA_nonneg s.nodes.size)
    linarith

theorem Spend.refl (I : LCT.SInv s.nodes s.fa.get tr) : Spend s s tr 0 0 0 0 0 :=
  ⟨rfl, rfl, rfl, rfl, rfl, rfl, rfl, by simp, ⟨tr, I, by simp⟩, by simp⟩

/-- an operation on the tree, and changes elsewhere -/
theorem Spend.op {k w : Nat} {h' : Heap D} (o : OpOK s.nodes h' s.fa.get tr k w) (e1 : s'.nodes = h') (e2 : s'.fa = s.fa)
    (e3 : s'.currentEdge = s.currentEdge) (e4 : s'.G = s.G)
    (e5 : s'.scaling = s.scaling) (e6 : s'.epsilon = s.epsilon) : Spend s s' tr ⟨0, k, w, 0, 0⟩ 1 1 0 0 := by
  obtain ⟨tr', a1, a2, a3, a4⟩ := o
  have hn : nr s' = nr s := by unfold nr; rw [e1, e2, a1]
  refine ⟨e3, e4, e5, e6, rfl, rfl, by rw [e1, a1], ?_, ⟨tr', by rw [e1, e2]; exact a2, ?_⟩, by rw [hn]; simp⟩
  · rw [hn]
    have : (w : ℝ) ≤ s.nodes.size := by exact_mod_cast a4
    linarith
  · unfold phi
    rw [hn, e1, e2, a1]
    linarith

/-- an operation without a walk -/
theorem Spend.op0 {k : Nat} {h' : Heap D} (o : OpOK s.nodes h' s.fa.get tr k 0) (e1 : s'.nodes = h') (e2 : s'.fa = s.fa)
    (e3 : s'.currentEdge = s.currentEdge) (e4 : s'.G = s.G)
    (e5 : s'.scaling = s.scaling) (e6 : s'.epsilon = s.epsilon) : Spend s s' tr ⟨0, k, 0, 0, 0⟩ 1 0 0 0 := by
  have h := Spend.op o e1 e2 e3 e4 e5 e6
  refine ⟨h.ce, h.g, h.sc, h.ep, h.it, h.ro, h.size, ?_, h.main, h.ev⟩
  obtain ⟨tr', a1, a2, a3, a4⟩ := o
  have hn : nr s' = nr s := by unfold nr; rw [e1, e2, a1]
  rw [hn]
  simp

theorem fa_set (fa : Vec (Option Nat)) (p : Nat) (v : Option Nat) : (fa.set p v).get = Function.update fa.get p v := by
  funext u
  simp only [Vec.set_get, Function.update_apply]

theorem nr_cut {v : Nat} (hn : s'.nodes.size = s.nodes.size) (hv : v < s.nodes.size) (h : s.fa.get v ≠ none)
    (hf : s'.fa.get = Function.update s.fa.get v none) : nr s' + 1 = nr s := by
  unfold nr
  rw [hn, hf, ← Finset.card_erase_add_one (s := Finset.filter (fun v => s.fa.get v ≠ none) (Finset.range s.nodes.size)) (a := v) (by simp [hv, h])]
  congr 2
  ext u
  simp only [Finset.mem_filter, Finset.mem_range, Finset.mem_erase, Function.update_apply]
  by_cases hu : u = v <;> simp [hu]

theorem nr_link {v j : Nat} (hn : s'.nodes.size = s.nodes.size) (hv : v < s.nodes.size) (h : s.fa.get v = none)
    (hf : s'.fa.get = Function.update s.fa.get v (some j)) : nr s' = nr s + 1 := by
  unfold nr
  rw [hn, hf, ← Finset.card_insert_of_notMem (s := Finset.filter (fun v => s.fa.get v ≠ none) (Finset.range s.nodes.size)) (a := v) (by simp [h])]
  congr 1
  ext u
  simp only [Finset.mem_filter, Finset.mem_range, Finset.mem_insert, Function.update_apply]
  by_cases hu : u = v <;> simp [hu, hv]

theorem vrd_inv {α : Type} {v : Vec α} {i : Nat} {x : α} (e : v.rd i = .ok x) : i < v.size ∧ x = v.get i := by
  unfold Vec.rd at e
  split at e
  · next hx => cases e; exact ⟨hx, rfl⟩
  · cases e

theorem wr_inv {α : Type} {v v' : Vec α} {i : Nat} {x : α} (h : v.wr i x = .ok v') : v' = v.set i x ∧ i < v.size := by
  unfold Vec.wr at h
  split at h
  · rename_i hi
    cases h
    exact ⟨rfl, hi⟩
  · cases h

theorem qC_le {x : D} {v : Nat} (e : qC imax s p = .ok (v, x)) : v ≤ 2 := by
  unfold qC at e
  obtain ⟨_, -, e⟩ := bind_ok e
  obtain ⟨_, -, e⟩ := bind_ok e
  obtain ⟨_, -, e⟩ := bind_ok e
  obtain ⟨_, -, e⟩ := bind_ok e
  obtain ⟨_, -, e⟩ := bind_ok e
  obtain ⟨_, -, e⟩ := bind_ok e
  obtain ⟨_, -, e⟩ := bind_ok e
  obtain ⟨_, -, e⟩ := bind_ok e
  obtain ⟨_, -, e⟩ := bind_ok e
  split at e
  · cases e; omega
  · split at e
    · cases e; omega
    · obtain ⟨_, -, e⟩ := bind_ok e
      obtain ⟨_, -, e⟩ := bind_ok e
      cases e; exact le_rfl

theorem Spend.cut (I : LCT.SInv s.nodes s.fa.get tr) (e : cutC imax fuel s p = .ok (c, s')) : Spend s s' tr c (-2) (-1) 0 0 := by
  unfold cutC at e
  obtain ⟨fa, e1, e⟩ := bind_ok e
  obtain ⟨rfl, -⟩ := wr_inv e1
  obtain ⟨⟨k1, h1⟩, e2, e⟩ := bind_ok e
  obtain ⟨g, -, e⟩ := bind_ok e
  obtain ⟨k, -, e⟩ := bind_ok e
  obtain ⟨e_id, -, e⟩ := bind_ok e
  obtain ⟨⟨v0, v⟩, hq, e⟩ := bind_ok e
  obtain ⟨⟨k2, w, h2⟩, e3, e⟩ := bind_ok e
  obtain ⟨s2, e4, e⟩ := bind_ok e
  cases e
  obtain ⟨hp, hpar, tr1, a1, a2, a3⟩ := I.cutOp e2
  obtain ⟨tr2, b1, b2, b3, -⟩ := a2.getValOp e3
  have hs : s'.nodes = h2 ∧ s'.fa = s.fa.set p none ∧ s'.currentEdge = s.currentEdge ∧ s'.G = s.G ∧
      s'.scaling = s.scaling ∧ s'.epsilon = s.epsilon := by
    unfold addFlowOfEdge at e4
    obtain ⟨_, -, e4⟩ := bind_ok e4
    obtain ⟨_, -, e4⟩ := bind_ok e4
    obtain ⟨_, -, e4⟩ := bind_ok e4
    obtain ⟨_, -, e4⟩ := bind_ok e4
    cases e4
    exact ⟨rfl, rfl, rfl, rfl, rfl, rfl⟩
  obtain ⟨r1, r2, r3, r4, r5, r6⟩ := hs
  have hsz : s'.nodes.size = s.nodes.size := by rw [r1, b1, a1]
  have hfa : s'.fa.get = Function.update s.fa.get p none := by rw [r2, fa_set]
  have hnr := nr_cut hsz hp hpar hfa
  refine ⟨r3, r4, r5, r6, rfl, rfl, hsz, ?_, ⟨tr2, by rw [r1, hfa]; exact b2, ?_⟩, ?_⟩
  · rw [← hnr]; push_cast; linarith
  · unfold phi
    rw [hsz, hfa, ← hnr]
    rw [a1] at b3
    push_cast
    linarith
  · have := qC_le hq
    show v0 + _ ≤ _
    omega

theorem enqueueActive_same {i : Nat} (e : enqueueActive s i = .ok s') :
    s'.nodes = s.nodes ∧ s'.fa = s.fa ∧ s'.currentEdge = s.currentEdge ∧ s'.G = s.G ∧ s'.scaling = s.scaling ∧ s'.epsilon = s.epsilon := by
  unfold enqueueActive at e
  obtain ⟨b, -, e⟩ := bind_ok e
  split at e
  · obtain ⟨uq, -, e⟩ := bind_ok e
    cases e
    exact ⟨rfl, rfl, rfl, rfl, rfl, rfl⟩
  · cases e
    exact ⟨rfl, rfl, rfl, rfl, rfl, rfl⟩

theorem Spend.sendPush (I : LCT.SInv s.nodes s.fa.get tr) {root : Nat} {x : D} (e : sendPushC fuel s p root x = .ok (c, s')) :
    Spend s s' tr c 1 0 0 0 := by
  unfold sendPushC at e
  obtain ⟨⟨k, h⟩, e1, e⟩ := bind_ok e
  obtain ⟨bp, -, e⟩ := bind_ok e
  obtain ⟨im, -, e⟩ := bind_ok e
  obtain ⟨br, -, e⟩ := bind_ok e
  obtain ⟨im2, -, e⟩ := bind_ok e
  obtain ⟨s2, e2, e⟩ := bind_ok e
  cases e
  obtain ⟨r1, r2, r3, r4, r5, r6⟩ := enqueueActive_same e2
  exact Spend.op0 (I.addValOp e1) r1 r2 r3 r4 r5 r6

theorem Spend.sendLoop {fuel0 : Nat} : ∀ (fuel : Nat) {s : Flow D} {tr : Nat → T} {root : Nat} {c : Cost}, LCT.SInv s.nodes s.fa.get tr →
    sendLoopC imax fuel0 p fuel s root = .ok (c, s') → Spend s s' tr c 2 1 0 0 := by
  intro fuel
  induction fuel with
  | zero => intro s tr root c _ e; cases e
  | succ fuel ih =>
    intro s tr root c I e
    unfold sendLoopC at e
    split at e
    · obtain ⟨⟨k, w, m, h⟩, e1, e⟩ := bind_ok e
      obtain ⟨bp, -, e⟩ := bind_ok e
      have o := Spend.op (s' := { s with nodes := h }) (I.getMinOp e1) rfl rfl rfl rfl rfl rfl
      simp only [] at e
      split at e
      · obtain ⟨⟨c1, s1⟩, e2, e⟩ := bind_ok e
        cases e
        exact (o.trans fun tr1 I1 => Spend.sendPush I1 e2).weaken (by norm_num) (by norm_num)
      · obtain ⟨⟨c1, s1⟩, e2, e⟩ := bind_ok e
        obtain ⟨r, -, e⟩ := bind_ok e
        obtain ⟨⟨c2, s2⟩, e3, e⟩ := bind_ok e
        obtain ⟨⟨c3, s3⟩, e4, e⟩ := bind_ok e
        cases e
        exact (((o.trans fun tr1 I1 => Spend.sendPush I1 e2).trans fun tr1 I1 => Spend.cut I1 e3).trans fun tr1 I1 =>
          ih I1 e4).weaken (by norm_num) (by norm_num)
    · cases e
      exact (Spend.refl I).weaken (by norm_num) (by norm_num)

theorem Spend.linkSend {c1 c2 : Cost} {s1 : Flow D} (I : LCT.SInv s.nodes s.fa.get tr) (hp : s.fa.get p = none)
    (hr : ∀ g k e_id e, s.G.rd p = .ok g → s.currentEdge.rd p = .ok k → listRd g k = .ok e_id → s.edges.rd e_id = .ok e →
      e.j < s.nodes.size ∧ ¬ OnPath s.fa.get e.j p)
    (e1 : linkC imax fuel s p = .ok (c1, s1)) {fuel'} (e2 : sendC imax fuel' s1 p = .ok (c2, s')) : Spend s s' tr (c1 + c2) 9 3 0 1 := by
  unfold linkC at e1
  obtain ⟨g, g1, e1⟩ := bind_ok e1
  obtain ⟨k, g2, e1⟩ := bind_ok e1
  obtain ⟨e_id, g3, e1⟩ := bind_ok e1
  obtain ⟨e, g4, e1⟩ := bind_ok e1
  obtain ⟨fa, g5, e1⟩ := bind_ok e1
  obtain ⟨rfl, -⟩ := wr_inv g5
  obtain ⟨⟨v0, v⟩, g6, e1⟩ := bind_ok e1
  obtain ⟨⟨k1, h1⟩, e3, e1⟩ := bind_ok e1
  obtain ⟨⟨k2, h2⟩, e4, e1⟩ := bind_ok e1
  cases e1
  obtain ⟨q1, q2⟩ := hr _ _ _ _ g1 g2 g3 g4
  unfold sendC at e2
  obtain ⟨⟨k3, w, r, h3⟩, e5, e2⟩ := bind_ok e2
  obtain ⟨⟨c3, s3⟩, e6, e2⟩ := bind_ok e2
  cases e2
  obtain ⟨tr1, a1, a2, a3, -⟩ := I.setValOp e3
  obtain ⟨hx, tr2, b1, b2, b3, b4⟩ := a2.linkFindOp (by rw [a1]; exact q1) hp q2 e4 e5
  rw [a1] at hx b1 b3 b4
  have o : Spend s { s with fa := s.fa.set p (some e.j), nodes := h3 } tr ⟨0, k1 + k2 + k3, w, 0, v0⟩ 7 2 0 1 := by
    have hfa : ({ s with fa := s.fa.set p (some e.j), nodes := h3 } : Flow D).fa.get = Function.update s.fa.get p (some e.j) := fa_set _ _ _
    have hnr := nr_link (s := s) (s' := { s with fa := s.fa.set p (some e.j), nodes := h3 }) b1 hx hp hfa
    refine ⟨rfl, rfl, rfl, rfl, rfl, rfl, b1, ?_, ⟨tr2, by rw [hfa]; exact b2, ?_⟩, ?_⟩
    · rw [hnr]
      have : (w : ℝ) ≤ s.nodes.size := by exact_mod_cast b4
      push_cast
      linarith
    · unfold phi
      rw [hfa, hnr]
      show (((k1 + k2 + k3 : Nat)) : ℝ) + (pot6 h3.size _ tr2 + 4 * opA h3.size * _) ≤ _
      rw [b1]
      push_cast at b3 ⊢
      linarith
    · have := qC_le g6
      rw [hnr]
      show v0 + _ ≤ _
      omega
  have o2 := (o.trans fun tr1 I1 => Spend.sendLoop _ I1 e6).weaken (show (7 + 2 : ℝ) ≤ 9 by norm_num) (show (2 + 1 : ℝ) ≤ 3 by norm_num)
  have hc : (⟨0, k1 + k2, 0, 0, v0⟩ + (⟨0, k3, w, 0, 0⟩ + c3) : Cost) = ⟨0, k1 + k2 + k3, w, 0, v0⟩ + c3 := by
    obtain ⟨x1, x2, x3, x4, x5⟩ := c3
    show Cost.mk (0 + (0 + x1)) (k1 + k2 + (k3 + x2)) (0 + (w + x3)) (0 + (0 + x4)) (v0 + (0 + x5)) =
      Cost.mk (0 + x1) (k1 + k2 + k3 + x2) (w + x3) (0 + x4) (v0 + x5)
    simp only [Cost.mk.injEq]
    omega
  rw [hc]
  exact o2

theorem Spend.cutChildren : ∀ (es : List Nat) {s : Flow D} {tr : Nat → T} {c : Cost}, LCT.SInv s.nodes s.fa.get tr →
    cutChildrenC imax fuel p es s = .ok (c, s') → Spend s s' tr c 0 0 es.length 0 := by
  intro es
  induction es with
  | nil => intro s tr c I e; cases e; exact .refl I
  | cons e_id es ih =>
    intro s tr c I e
    unfold cutChildrenC at e
    obtain ⟨e0, -, e⟩ := bind_ok e
    obtain ⟨f, -, e⟩ := bind_ok e
    have one : Spend s s tr ⟨0, 0, 0, 1, 0⟩ 0 0 1 0 := ⟨rfl, rfl, rfl, rfl, rfl, rfl, rfl, by simp, ⟨tr, I, by simp⟩, by simp⟩
    split at e
    · obtain ⟨⟨c1, s1⟩, e1, e⟩ := bind_ok e
      obtain ⟨⟨c2, s2⟩, e2, e⟩ := bind_ok e
      cases e
      have := ((one.trans fun tr1 I1 => Spend.cut I1 e1).trans fun tr1 I1 => ih I1 e2).weaken (a' := 0) (w' := 0) (by norm_num) (by norm_num)
      rwa [show 1 + 0 + es.length = (e_id :: es).length by simp; omega] at this
    · simp only [ok_bind] at e
      obtain ⟨⟨c2, s2⟩, e2, e⟩ := bind_ok e
      cases e
      have := ((one.trans fun tr1 I1 => Spend.refl I1).trans fun tr1 I1 => ih I1 e2).weaken (a' := 0) (w' := 0) (by norm_num) (by norm_num)
      rwa [show 1 + 0 + es.length = (e_id :: es).length by simp; omega] at this

end

section
variable {K : Type} [Field K] [LinearOrder K] [IsStrictOrderedRing K]
variable {R : Type} [Zero R] [One R] [Add R] [Sub R] [Neg R] [Mul R] [Div R] [IntCast R] [BEq R] [LT R] [LE R]
  [DecidableLT R] [DecidableLE R] {E : FEmb K R} {ed : Vec (OmegaLimit R)} {C : K}
variable {net : Net K} {h : Int} {s s' : Flow K} {f w : Nat → K} {τ : Nat → Nat} {tr : Nat → T} {imax : Int} {fuel p : Nat} {c : Cost}

/-- the costs of a round; `p` is the node at the front of the queue -/
structure RoundC (net : Net K) (s s' : Flow K) (tr : Nat → T) (c : Cost) (p : Nat) : Prop where
  size : s'.nodes.size = s.nodes.size
  walk : (c.walk : ℝ) + s.nodes.size * nr s' ≤ 3 * s.nodes.size + s.nodes.size * nr s
  main : ∃ tr', LCT.SInv s'.nodes s'.fa.get tr' ∧ (c.steps : ℝ) + phi s' tr' ≤ 9 * opA s.nodes.size + phi s tr
  it : (s'.scaling = s.scaling ∧ c.iters + s.currentEdge.get p = s'.currentEdge.get p + 1) ∨
    s'.scaling = s.scaling.set p (s.scaling.get p + s.epsilon.tdiv 2) ∧ c.iters + s.currentEdge.get p = 2 * (net.out p).length ∧
      s'.currentEdge.get p = 0
  oth : ∀ v, v ≠ p → s'.currentEdge.get v = s.currentEdge.get v
  le : s'.currentEdge.get p ≤ (net.out p).length
  ev : c.evals + 2 * nr s' ≤ 2 * nr s + 2 * c.iters + 4

theorem FInv.path_le (ok : net.OK) (I : FInv E C net h s f w τ) {a b : Nat} (ha : a ≤ net.n) (hab : OnPath s.fa.get a b) : τ b ≤ τ a := by
  induction hab using Relation.ReflTransGen.head_induction_on with
  | refl => exact le_rfl
  | @head a c hac _ ih =>
    have h1 := I.rkt a ha c hac
    have h2 := ih (I.fa_le ok ha hac)
    omega

theorem RoundC.choice (ok : net.OK) (rm : Room E ed net C) {fuel0} (hfuel0 : net.n + 2 ≤ fuel0) (hp : p ≤ net.n) :
    ∀ (fuel : Nat) {s : Flow K} {tr : Nat → T} {c : Cost}, FInv E C net h s f w τ → PotOK net imax s → s.fa.get p = none →
      s.currentEdge.get p ≤ (net.out p).length → LCT.SInv s.nodes s.fa.get tr → choiceLoopC imax fuel0 p fuel s = .ok (c, s') →
      c.rounds = 0 ∧ RoundC net s s' tr c p := by
  intro fuel
  induction fuel with
  | zero => intro s tr c _ _ _ _ _ e; cases e
  | succ fuel ih =>
    intro s tr c I po hroot hce T e
    unfold choiceLoopC at e
    obtain ⟨k, e1, e⟩ := bind_ok e
    obtain ⟨-, rfl⟩ := vrd_inv e1
    obtain ⟨g, e2, e⟩ := bind_ok e
    obtain ⟨-, rfl⟩ := vrd_inv e2
    rw [I.st.g p hp] at e
    split at e
    · rename_i hk
      rw [listRd_ok hk, ok_bind] at e
      set e_id := (net.out p)[s.currentEdge.get p] with he
      have hce' : Flow.ce net s p = some e_id := by simp [Flow.ce, he]
      obtain ⟨b1, b2⟩ := ce_src hce'
      obtain ⟨⟨v0, x⟩, q1, e⟩ := bind_ok e
      have hv := qC_le q1
      have q2 := (qC_er _ _ _).to_ok q1
      rw [I.q ok po b1] at q2
      cases q2
      dsimp only at e
      have hnt : ¬ Tree net s e_id := by
        rintro ⟨-, h2, -⟩; rw [b2] at h2; exact h2 hroot
      split at e
      · rename_i hpos
        have hadm : s.flows.get e_id < net.L e_id (dd net s e_id) := by
          rcases lt_max_iff.1 hpos with h | h
          · exact absurd h (lt_irrefl _)
          · linarith
        obtain ⟨⟨c1, s1⟩, e3, e⟩ := bind_ok e
        obtain ⟨⟨c2, s2⟩, e4, e⟩ := bind_ok e
        cases e
        obtain ⟨-, -, -, -, -, -, -, -, -, -, l9, -⟩ := I.link ok rm po hfuel0 hp hroot hce' hadm
        have L := Spend.linkSend T hroot (fun g k e_id' e q1 q2 q3 q4 => by
          obtain ⟨-, rfl⟩ := vrd_inv q1
          obtain ⟨-, rfl⟩ := vrd_inv q2
          rw [I.st.g p hp, listRd_ok hk] at q3
          cases q3
          obtain ⟨-, rfl⟩ := vrd_inv q4
          rw [← he, I.st.ej e_id b1]
          refine ⟨?_, fun hpath => ?_⟩
          · have := ok.dst_le e_id b1
            rw [I.st.nsz]; omega
          · have h1 := I.rk e_id b1 l9
            have h2 := I.path_le ok (ok.dst_le e_id b1) hpath
            rw [b2] at h1
            omega) e3 e4
        refine ⟨?_, ⟨L.size, ?_, ?_, .inl ⟨L.sc, ?_⟩, fun v _ => by rw [L.ce], by rw [L.ce]; exact hce, ?_⟩⟩
        · have := L.ro
          simp only [Cost.add_rounds] at this ⊢
          omega
        · have := L.walk
          simp only [Cost.add_walk] at this ⊢
          simpa using this
        · obtain ⟨tr', m1, m2⟩ := L.main
          refine ⟨tr', m1, ?_⟩
          simp only [Cost.add_steps] at m2 ⊢
          simpa using m2
        · have := L.it
          simp only [Cost.add_iters] at this ⊢
          rw [L.ce]
          omega
        · have := L.ev
          simp only [Cost.add_evals, Cost.add_iters, L.it] at this ⊢
          omega
      · rename_i hpos
        have hadm : ¬ s.flows.get e_id < net.L e_id (dd net s e_id) := fun hc => hpos (lt_max_of_lt_right (by linarith))
        obtain ⟨ce1, e3, e⟩ := bind_ok e
        obtain ⟨rfl, -⟩ := wr_inv e3
        obtain ⟨⟨c1, s1⟩, e4, e⟩ := bind_ok e
        cases e
        have hle : net.L e_id (dd net s e_id) ≤ f e_id := by
          by_cases htx : Tree net s (e_id ^^^ 1)
          · obtain ⟨t1, t2, t3, t4⟩ := I.treeE ok htx
            have := not_adm_x (s := s) ok I.anti (ok.x_lt e_id b1) (by rw [t3]; linarith)
            rwa [xor_xor] at this
          · rw [← I.non e_id b1 hnt htx]; exact not_lt.1 hadm
        obtain ⟨I1, -⟩ := I.advance hroot hce' hle
        obtain ⟨r0, r⟩ := ih (tr := tr) I1 ⟨po.1, po.2, po.3⟩ hroot
          (by show (s.currentEdge.set p _).get p ≤ _; rw [Vec.set_get_self]; omega) T e4
        have hself : (s.currentEdge.set p (s.currentEdge.get p + 1)).get p = s.currentEdge.get p + 1 := Vec.set_get_self _ _ _
        refine ⟨?_, ⟨r.size, ?_, ?_, ?_, fun v hv => (r.oth v hv).trans (Vec.set_get_ne _ _ hv), r.le, ?_⟩⟩
        · simp only [Cost.add_rounds]; omega
        · have : (c1.walk : ℝ) + s.nodes.size * nr s1 ≤ 3 * s.nodes.size + s.nodes.size * nr s := r.walk
          simp only [Cost.add_walk]
          simpa using this
        · obtain ⟨tr', m1, m2⟩ := r.main
          have m2 : (c1.steps : ℝ) + phi s1 tr' ≤ 9 * opA s.nodes.size + phi s tr := m2
          refine ⟨tr', m1, ?_⟩
          simp only [Cost.add_steps]
          simpa using m2
        · rcases r.it with ⟨i1, i2⟩ | ⟨i1, i2, i3⟩
          · refine .inl ⟨i1, ?_⟩
            simp only [hself, Cost.add_iters] at i2 ⊢
            omega
          · refine .inr ⟨i1, ?_, i3⟩
            simp only [hself, Cost.add_iters] at i2 ⊢
            omega
        · have : c1.evals + 2 * nr s1 ≤ 2 * nr s + 2 * c1.iters + 4 := r.ev
          simp only [Cost.add_evals, Cost.add_iters]
          omega
    · rename_i hk
      unfold updateScalingC at e
      obtain ⟨g, q1, e⟩ := bind_ok e
      obtain ⟨-, rfl⟩ := vrd_inv q1
      rw [I.st.g p hp] at e
      obtain ⟨⟨c1, s1⟩, q2, e⟩ := bind_ok e
      obtain ⟨v, q3, e⟩ := bind_ok e
      obtain ⟨-, rfl⟩ := vrd_inv q3
      obtain ⟨v', q4, e⟩ := bind_ok e
      obtain ⟨sc, q5, e⟩ := bind_ok e
      obtain ⟨rfl, -⟩ := wr_inv q5
      obtain ⟨ce1, q6, e⟩ := bind_ok e
      obtain ⟨rfl, -⟩ := wr_inv q6
      cases e
      have L := Spend.cutChildren _ T q2
      have hv : v' = s1.scaling.get p + s1.epsilon.tdiv 2 := by
        unfold ck at q4
        split at q4
        · cases q4; rfl
        · cases q4
      have ha := opA_nonneg s.nodes.size
      refine ⟨L.ro, ⟨L.size, ?_, ?_, .inr ⟨?_, ?_, ?_⟩, fun v hv => ?_, ?_, ?_⟩⟩
      · have := L.walk
        have : (0 : ℝ) ≤ s.nodes.size := Nat.cast_nonneg _
        show _ + _ * ((nr s1 : Nat) : ℝ) ≤ _
        linarith
      · obtain ⟨tr', m1, m2⟩ := L.main
        refine ⟨tr', m1, ?_⟩
        show _ + phi s1 tr' ≤ _
        linarith
      · show s1.scaling.set p v' = _
        rw [hv, L.sc, L.ep]
      · rw [L.it]; omega
      · exact Vec.set_get_self _ _ _
      · show (s1.currentEdge.set p 0).get v = _
        rw [Vec.set_get_ne _ _ hv, L.ce]
      · show (s1.currentEdge.set p 0).get p ≤ _
        rw [Vec.set_get_self]; exact Nat.zero_le _
      · have := L.ev
        rw [← L.it] at this
        show c.evals + 2 * nr s1 ≤ _
        omega

end

end AHO.Flow
