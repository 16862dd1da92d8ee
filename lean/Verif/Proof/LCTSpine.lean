import Verif.Proof.LCTAmortRun
/-!
# A path which becomes a list

Nodes linked one below the other, `find_root` at every new node: the auxiliary tree of the path is a list of left children.
-/

namespace AHO.LCT
open AHO T
set_option linter.unusedSectionVars false

/-- a list of left children -/
def spine : Nat → T
  | 0 => node nil 0 nil
  | i + 1 => node (spine i) (i + 1) nil

def spineL : Nat → T
  | 0 => nil
  | i + 1 => spine i

theorem spine_eq (i : Nat) : spine i = node (spineL i) i nil := by cases i <;> rfl

theorem mem_spine {k i : Nat} : k ∈ (spine i).io ↔ k ≤ i := by
  induction i with
  | zero => simp [spine]
  | succ i ih => simp only [spine, io_node, io_nil, List.mem_append, List.mem_singleton, ih]; omega

theorem spine_nodup (i : Nat) : (spine i).io.Nodup := by
  induction i with
  | zero => simp [spine]
  | succ i ih =>
    simp only [spine, io_node, io_nil]
    rw [List.nodup_append]
    refine ⟨ih, by simp, fun a ha b hb => ?_⟩
    rw [mem_spine] at ha
    have : b = i + 1 := by simpa using hb
    omega

variable {D : Type} [Add D] [Zero D] [BEq D] [LT D] [LE D] [DecidableLT D] [DecidableLE D]

structure SP (h : Heap D) (n i : Nat) : Prop where
  size : h.size = n
  lt : i < n
  shape : Shape h (spine i) none
  fresh : ∀ k, i < k → (h.get k).fa = none ∧ (h.get k).ch0 = none ∧ (h.get k).ch1 = none

theorem rootOK_none (h : Heap D) (t : T) : RootOK h t none := fun g hg => by cases hg

theorem wr_inv {h h' : Heap D} {x : Nat} {n : LNode D} (e : h.wr x n = .ok h') : x < h.size ∧ h' = h.set x n := by
  by_cases hx : x < h.size
  · rw [Vec.wr_ok _ hx] at e; cases e; exact ⟨hx, rfl⟩
  · unfold Vec.wr at e; rw [if_neg hx] at e; cases e

theorem leftmostC_spine {h : Heap D} : ∀ (fuel i : Nat) {f k v}, Shape h (spine i) f → leftmostC h fuel i = .ok (k, v) → k = i := by
  intro fuel
  induction fuel with
  | zero => intro i f k v _ e; cases e
  | succ fuel ih =>
    intro i f k v hs e
    rw [leftmostC] at e
    obtain ⟨n, e1, e⟩ := bind_ok e
    obtain ⟨-, rfl⟩ := rd_inv e1
    cases i with
    | zero =>
      have : (h.get 0).ch0 = none := hs.2.2.1
      simp only [this] at e
      cases e; rfl
    | succ i =>
      have : (h.get (i + 1)).ch0 = some i := by rw [hs.2.2.1, spine_eq]; rfl
      simp only [this] at e
      obtain ⟨⟨k1, v1⟩, e2, e⟩ := bind_ok e
      cases e
      rw [ih i hs.2.2.2.2.1 e2]

/-- `set_fa` of the next node -/
theorem SP.setFa {h h' : Heap D} {n i fuel k : Nat} (P : SP h n i) (hi : i + 1 < n) (e : setFaC fuel h (i + 1) i = .ok (k, h')) :
    h'.size = n ∧ Shape h' (spine i) none ∧ Shape h' (node nil (i + 1) nil) (some i) ∧
      ∀ k, i + 1 < k → (h'.get k).fa = none ∧ (h'.get k).ch0 = none ∧ (h'.get k).ch1 = none := by
  unfold setFaC at e
  obtain ⟨⟨k0, h1⟩, e1, e⟩ := bind_ok e
  obtain ⟨nn, e2, e⟩ := bind_ok e
  obtain ⟨-, rfl⟩ := rd_inv e2
  split at e
  swap
  · cases e
  obtain ⟨h2, e3, e⟩ := bind_ok e
  cases e
  obtain ⟨hx1, rfl⟩ := wr_inv e3
  have hs : Shape h (plug (node nil (i + 1) nil) []) none := by
    obtain ⟨q1, q2, q3⟩ := P.fresh (i + 1) (by omega)
    exact ⟨by rw [P.size]; exact hi, q1, q2, q3, trivial, trivial⟩
  obtain ⟨a, b, f1, f2, f3, f4, f5, f6, -⟩ := splayC_struct hs (by simp) (rootOK_none _ _) e1
  rw [f6.1 rfl] at f4
  have hne : ∀ k, k ≠ i + 1 → SamePtr h (h1.set (i + 1) { h1.get (i + 1) with fa := some i }) k := fun k hk => by
    rw [SamePtr, Vec.set_get_ne _ _ hk]
    exact f5 k (by simpa using hk)
  refine ⟨by rw [← P.size, ← f2]; rfl, P.shape.congr f2 fun k hk => hne k ?_, ?_, fun k hk => ?_⟩
  · rw [mem_spine] at hk; omega
  · obtain ⟨q1, q2, q3, q4, -, -⟩ := f4
    exact ⟨q1, by simp, by simpa using q3, by simpa using q4, trivial, trivial⟩
  · have := hne k (by omega)
    rw [this.1, this.2.1, this.2.2]
    exact P.fresh k (by omega)

/-- `access` at the new node -/
theorem SP.access {h h' : Heap D} {n i fuel k : Nat} (hi : i + 1 < n) (hsz : h.size = n) (S1 : Shape h (spine i) none)
    (S2 : Shape h (node nil (i + 1) nil) (some i))
    (S3 : ∀ k, i + 1 < k → (h.get k).fa = none ∧ (h.get k).ch0 = none ∧ (h.get k).ch1 = none)
    (e : accessC fuel h (i + 1) = .ok (k, h')) : SP h' n (i + 1) := by
  unfold accessC at e
  obtain ⟨⟨k1, h4⟩, e1, e⟩ := bind_ok e
  obtain ⟨⟨m, h5⟩, e2, e⟩ := bind_ok e
  cases e
  cases fuel with
  | zero => cases e1
  | succ fuel =>
  rw [accessLoopC] at e1
  simp only [] at e1
  obtain ⟨⟨k0, g1⟩, e3, e1⟩ := bind_ok e1
  obtain ⟨g2, e4, e1⟩ := bind_ok e1
  obtain ⟨g3, e5, e1⟩ := bind_ok e1
  obtain ⟨nn, e6, e1⟩ := bind_ok e1
  obtain ⟨⟨k2, h6⟩, e7, e1⟩ := bind_ok e1
  cases e1
  obtain ⟨-, rfl⟩ := rd_inv e6
  -- the first iteration changes no pointer
  have hmem : ∀ z, (spineL i).rt = some z → z ≠ i + 1 := fun z hz e => by
    have : z ∈ (spine i).io := by rw [spine_eq]; simp [rt_mem hz]
    rw [mem_spine] at this; omega
  have hr : RootOK h (plug (node nil (i + 1) nil) []) (some i) := by
    intro g hg
    cases hg
    rw [spine_eq] at S1
    refine ⟨by omega, by simp, fun k hk => ?_⟩
    have hk : k = i + 1 := by simpa using hk
    subst hk
    rw [S1.2.2.1, S1.2.2.2.1]
    exact ⟨fun e => hmem _ e rfl, nofun⟩
  obtain ⟨a, b, f1, f2, f3, f4, f5, f6, -⟩ := splayC_struct (c := []) S2 (by simp) hr e3
  rw [f6.1 rfl] at f4
  obtain ⟨nn, c1, c2⟩ := bind_ok e4
  obtain ⟨hx1, rfl⟩ := rd_inv c1
  obtain ⟨g2', c3, c4⟩ := bind_ok c2
  cases c4
  have pp1 : Ptrs g1 g3 := (Ptrs.wr hx1 c3 ⟨rfl, rfl, by
    have := f4.2.2.2.1
    simp only [LNode.setCh, if_true, this]; rfl⟩).trans (pushUp_ptrs e5)
  have F4 := f4.ptrs pp1
  have hne1 : ∀ k, k ≠ i + 1 → SamePtr h g3 k := fun k hk => (f5 k (by simpa using hk)).trans (pp1.2 k)
  have hg3 : g3.size = n := by rw [pp1.1, f2, hsz]
  have T1 : Shape g3 (spine i) none := S1.congr (by omega) fun k hk => hne1 k (by rw [mem_spine] at hk; omega)
  have T3 : ∀ k, i + 1 < k → (g3.get k).fa = none ∧ (g3.get k).ch0 = none ∧ (g3.get k).ch1 = none := fun k hk => by
    have := hne1 k (by omega)
    rw [this.1, this.2.1, this.2.2]
    exact S3 k hk
  rw [F4.2.1] at e7
  -- the second iteration
  cases fuel with
  | zero => cases e7
  | succ fuel =>
  rw [accessLoopC] at e7
  simp only [] at e7
  obtain ⟨⟨k3, g4⟩, d3, e7⟩ := bind_ok e7
  obtain ⟨g5, d4, e7⟩ := bind_ok e7
  obtain ⟨g6, d5, e7⟩ := bind_ok e7
  obtain ⟨nn, d6, e7⟩ := bind_ok e7
  obtain ⟨⟨k4, h7⟩, d7, e7⟩ := bind_ok e7
  cases e7
  obtain ⟨-, rfl⟩ := rd_inv d6
  have T1' := T1
  rw [spine_eq] at T1'
  obtain ⟨a', b', u1, u2, u3, u4, u5, u6, -⟩ := splayC_struct (c := []) T1' (by have := spine_nodup i; rwa [spine_eq] at this)
    (rootOK_none _ _) d3
  rw [u6.1 rfl, ← spine_eq] at u4
  simp only [plug_nil, ← spine_eq] at u5
  obtain ⟨nn, w1, w2⟩ := bind_ok d4
  obtain ⟨hi4, rfl⟩ := rd_inv w1
  obtain ⟨g4', w3, w4⟩ := bind_ok w2
  simp only [] at w4
  obtain ⟨nn, w5, w4⟩ := bind_ok w4
  obtain ⟨-, rfl⟩ := wr_inv w3
  obtain ⟨hx4, rfl⟩ := rd_inv w5
  obtain ⟨-, rfl⟩ := wr_inv w4
  have pp2 := pushUp_ptrs d5
  have hg6 : g6.size = n := by rw [pp2.1, ← hg3, ← u2]; rfl
  have hii : i ≠ i + 1 := by omega
  have A1 : (g6.get i).fa = none ∧ (g6.get i).ch0 = (spineL i).rt ∧ (g6.get i).ch1 = some (i + 1) := by
    rw [spine_eq] at u4
    obtain ⟨q1, q2, q3, q4, -, -⟩ := u4
    rw [(pp2.2 i).1, (pp2.2 i).2.1, (pp2.2 i).2.2, Vec.set_get_ne _ _ hii]
    simp [LNode.setCh, q2, q3]
  have X4 := u5 (i + 1) (by rw [mem_spine]; omega)
  have A2 : (g6.get (i + 1)).fa = some i ∧ (g6.get (i + 1)).ch0 = none ∧ (g6.get (i + 1)).ch1 = none := by
    obtain ⟨q1, q2, q3, q4, -, -⟩ := F4
    rw [(pp2.2 (i + 1)).1, (pp2.2 (i + 1)).2.1, (pp2.2 (i + 1)).2.2]
    simp only [Vec.set_get_self, Vec.set_get_ne _ _ (Ne.symm hii), X4.2.1, X4.2.2, q3, q4]
    simp
  have A3 : ∀ k, k ≠ i → k ≠ i + 1 → SamePtr g4 g6 k := fun k h1 h2 =>
    SamePtr.trans (by rw [SamePtr, Vec.set_get_ne _ _ h2, Vec.set_get_ne _ _ h1]; exact ⟨rfl, rfl, rfl⟩) (pp2.2 k)
  rw [A1.1] at d7
  obtain rfl : g6 = h7 := by
    cases fuel with
    | zero => cases d7
    | succ fuel => rw [accessLoopC] at d7; cases d7; rfl
  have B : Shape g6 (plug (node nil (i + 1) nil) [(true, i, spineL i)]) none := by
    rw [spine_eq] at u4
    obtain ⟨q1, q2, q3, q4, q5, -⟩ := u4
    have hL : ∀ k ∈ (spineL i).io, k < i := fun k hk => by
      cases i with
      | zero => cases hk
      | succ i => rw [spineL, mem_spine] at hk; omega
    refine ⟨by omega, A1.1, A1.2.1, A1.2.2, q5.congr (by rw [hg6, u2, hg3]) fun k hk => A3 k (by have := hL k hk; omega) (by have := hL k hk; omega), ?_⟩
    exact ⟨by omega, A2.1, A2.2.1, A2.2.2, trivial, trivial⟩
  have hnB : (plug (node nil (i + 1) nil) [(true, i, spineL i)]).io.Nodup := by
    have := spine_nodup (i + 1)
    rw [spine, spine_eq] at this
    simpa using this
  obtain ⟨a', b', v1, v2, v3, v4, v5, v6, -⟩ := splayC_struct B hnB (rootOK_none _ _) e2
  rw [v6.2 i _ rfl, ← spine_eq] at v4
  refine ⟨by omega, hi, v4, fun k hk => ?_⟩
  have hk' : k ∉ (plug (node nil (i + 1) nil) [(true, i, spineL i)]).io := by
    have : k ∉ (spine (i + 1)).io := by rw [mem_spine]; omega
    rw [spine, spine_eq] at this
    simpa using this
  have := (((u5 k (by rw [mem_spine]; omega)).trans (A3 k (by omega) (by omega))).trans (v5 k hk'))
  rw [this.1, this.2.1, this.2.2]
  exact T3 k hk

/-- the recursion of `push_down_from_root` at the end of the list -/
theorem pushDownFromRoot_spine {h : Heap D} {n : Nat} (hs : Shape h (spine n) none) : ∀ (fuel j : Nat), j ≤ n → fuel + j ≤ n →
    pushDownFromRoot fuel h j = .error .fuel := by
  have fa : ∀ m i f, Shape h (spine m) f → i < m → i < h.size ∧ i + 1 < h.size ∧ (h.get i).fa = some (i + 1) ∧ (h.get (i + 1)).ch0 = some i := by
    intro m
    induction m with
    | zero => intro i f _ hi; omega
    | succ m ih =>
      intro i f hs hi
      rw [spine] at hs
      obtain ⟨q1, q2, q3, q4, q5, -⟩ := hs
      by_cases him : i = m
      · subst him
        have := q5
        rw [spine_eq] at this q3
        exact ⟨this.1, q1, this.2.1, q3⟩
      · exact ih i _ q5 (by omega)
  intro fuel
  induction fuel with
  | zero => intro j _ _; rfl
  | succ fuel ih =>
    intro j hj hf
    obtain ⟨q1, q2, q3, q4⟩ := fa n j none hs (by omega)
    have hr : isRoot h j = .ok false := by
      unfold isRoot
      rw [Vec.rd_ok q1, ok_bind, q3]
      simp only []
      rw [Vec.rd_ok q2, ok_bind, q4]
      simp
    rw [pushDownFromRoot, hr, ok_bind]
    simp only [Bool.not_false, if_true]
    rw [Vec.rd_ok q1, ok_bind, q3]
    simp only [deref, ok_bind]
    rw [ih (j + 1) (by omega) (by omega)]
    rfl

end AHO.LCT
