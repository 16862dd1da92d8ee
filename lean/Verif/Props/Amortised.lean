import Verif.Proof.LCTSpine
import Verif.Props.Structures
/-!
# Running time of the link-cut tree
-/

namespace AHO.Props
open AHO Spec LCT T

section
variable {K : Type} [AddCommGroup K] [LinearOrder K] [IsOrderedAddMonoid K]

omit [IsOrderedAddMonoid K] in
/-- C56, C57: the counters of `lctRunC` do not change what is computed. -/
theorem C56_counters_only (fuel : Nat) (h : Heap K) (ops : List (ForestOp K)) :
    (lctRunC fuel h ops).map (·.2.2) = lctRun fuel h ops := lctRunC_er fuel ops h

/-- C57. Take `n` fresh nodes and any sequence of operations with the preconditions met in which every `set_fa`, unless it is the
last operation, is followed at once by an operation which walks from the same node to its root (this is how `src/Flow.cpp` uses
the structure). Then all the calls of `rot` and `push_down_from_root` and the iterations of the loop of `access` together number at most
`42 log₂ (n + 1) + 11` for each operation, and the loops of `find_root` and `get_min_wtrbnr` make at most `n` iterations for each. -/
theorem C57_access_amortised (n : Nat) (ops : List (ForestOp K)) (valid : Forest.Valid n Forest.init ops) (linked : Forest.Linked ops)
    (fuel : Nat) (hf : n + 1 ≤ fuel) :
    ∃ steps walk as h, lctRunC fuel (lctInit n : Heap K) ops = .ok (steps, walk, as, h) ∧
      (steps : ℝ) ≤ (42 * Real.logb 2 (n + 1) + 11) * ops.length ∧ walk ≤ n * ops.length := by
  obtain ⟨as, h, F, e1, -, -, -⟩ := lctRun_spec (K := K) hf ops (h := lctInit n) (F := Forest.init) rfl (LCT.rep_init n) valid
  have er := lctRunC_er fuel ops (lctInit n : Heap K)
  rw [e1] at er
  cases hc : lctRunC fuel (lctInit n : Heap K) ops with
  | error e => rw [hc] at er; cases er
  | ok r =>
    obtain ⟨k, w, as', h'⟩ := r
    obtain ⟨h1, h2⟩ := lctRunC_amort ops.length ops le_rfl linked (show (lctInit n : Heap K).size = n from rfl) valid
      (sinv_init n) hc
    refine ⟨k, w, as', h', rfl, ?_, h1⟩
    have h3 : pot n (siz n (Forest.init (K := K)).par) (fun v => node nil v nil) = 0 := pot_init n
    rw [h3] at h2
    have : lg (n + 1) = Real.logb 2 (n + 1) := by simp [lg]
    rw [this] at h2
    simpa using h2

end

/-- The nodes `i + 1, …, i + m` linked one below the other, each link followed by a search for the root. -/
def chainOps (K : Type) : Nat → Nat → List (ForestOp K)
  | _, 0 => []
  | i, m + 1 => .setFa (i + 1) i :: .findRoot (i + 1) :: chainOps K (i + 1) m

theorem chainOps_length (K : Type) (m : Nat) : ∀ i, (chainOps K i m).length = 2 * m := by
  induction m with
  | zero => intro i; rfl
  | succ m ih => intro i; simp only [chainOps, List.length_cons, ih]; omega

theorem chainOps_linked (K : Type) (m : Nat) : ∀ i, Forest.Linked (chainOps K i m) := by
  induction m with
  | zero => intro i; trivial
  | succ m ih => intro i; exact ⟨rfl, ih (i + 1)⟩

section
variable {K : Type} [AddCommGroup K] [LinearOrder K] [IsOrderedAddMonoid K]

omit [LinearOrder K] [IsOrderedAddMonoid K] in
theorem chainOps_valid {n : Nat} (m : Nat) : ∀ (i : Nat) (F : Forest K), i + m < n → (∀ k, i < k → F.par k = none) →
    (∀ k p, F.par k = some p → p ≤ k) → F.Valid n (chainOps K i m) := by
  induction m with
  | zero => intro i F _ _ _; trivial
  | succ m ih =>
    intro i F hn hF hd
    refine ⟨⟨by omega, by omega, hF _ (by omega), fun h => ?_⟩, show i + 1 < n by omega, ih (i + 1) _ (by omega) (fun k hk => ?_) fun k p hk => ?_⟩
    · have : ∀ a b, Relation.ReflTransGen (fun a b => F.par a = some b) a b → b ≤ a := by
        intro a b h
        induction h with
        | refl => exact le_rfl
        | tail _ h2 ih => exact (hd _ _ h2).trans ih
      have := this _ _ h
      omega
    · have : k ≠ i + 1 := by omega
      simp only [Forest.apply, this, if_false]
      exact hF k (by omega)
    · simp only [Forest.apply] at hk
      split at hk
      · cases hk; omega
      · exact hd k p hk

omit [IsOrderedAddMonoid K] in
theorem chainOps_run {n fuel : Nat} (m : Nat) : ∀ {i : Nat} {h h' : Heap K} {k w : Nat} {as : List (ForestAns K)}, i + m < n → SP h n i →
    lctRunC fuel h (chainOps K i m) = .ok (k, w, as, h') → SP h' n (i + m) ∧ 2 * w = (i + m) * (i + m + 1) - i * (i + 1) := by
  induction m with
  | zero => intro i h h' k w as _ P e; cases e; exact ⟨P, by simp⟩
  | succ m ih =>
    intro i h h' k w as hn P e
    simp only [chainOps, lctRunC, lctStepC, bind_assoc] at e
    obtain ⟨⟨k1, h1⟩, e1, e⟩ := bind_ok e
    simp only [ok_bind] at e
    obtain ⟨⟨k2, w2, r2, h2⟩, e2, e⟩ := bind_ok e
    obtain ⟨⟨k3, w3, a3, h3⟩, e3, e⟩ := bind_ok e
    cases e
    obtain ⟨q1, q2, q3, q4⟩ := P.setFa (by omega) e1
    unfold findRootC at e2
    obtain ⟨⟨k4, h4⟩, e4, e2⟩ := bind_ok e2
    obtain ⟨⟨k5, r5⟩, e5, e2⟩ := bind_ok e2
    cases e2
    have P' := SP.access (by omega) q1 q2 q3 q4 e4
    have hw := leftmostC_spine _ _ P'.shape e5
    obtain ⟨P2, hw3⟩ := ih (by omega) P' e3
    refine ⟨by rw [show i + (m + 1) = i + 1 + m by omega]; exact P2, ?_⟩
    simp only [] at hw hw3 ⊢
    rw [show i + (m + 1) = i + 1 + m by omega]
    have h1 : (i + 1) * (i + 1 + 1) ≤ (i + 1 + m) * (i + 1 + m + 1) := Nat.mul_le_mul (by omega) (by omega)
    have h2 : (i + 1) * (i + 1 + 1) = i * (i + 1) + 2 * (i + 1) := by ring
    omega

/-- C56, the sequence. `m` links of `m + 1` fresh nodes, one below the other, each followed by `find_root` at the lower node: the loop of
`find_root` makes `m (m + 1) / 2` iterations altogether. In the end `push_down_from_root` at node `0` calls itself more than `m`
deep. -/
theorem C56_chain_is_quadratic (m fuel : Nat) (hf : m + 2 ≤ fuel) :
    ∃ steps walk as h, lctRunC fuel (lctInit (m + 1) : Heap K) (chainOps K 0 m) = .ok (steps, walk, as, h) ∧ 2 * walk = m * (m + 1) ∧
      ∀ depth, depth ≤ m → LCT.pushDownFromRoot depth h 0 = .error .fuel := by
  have valid : Forest.Valid (m + 1) (Forest.init (K := K)) (chainOps K 0 m) :=
    chainOps_valid m 0 _ (by omega) (fun _ _ => rfl) fun _ _ h => by cases h
  obtain ⟨k, w, as, h, e, -, -⟩ := C57_access_amortised (m + 1) (chainOps K 0 m) valid (chainOps_linked K m 0) fuel hf
  have P : SP (lctInit (m + 1) : Heap K) (m + 1) 0 := by
    refine ⟨rfl, by omega, ⟨Nat.succ_pos m, ?_, ?_, ?_, trivial, trivial⟩, fun k _ => ?_⟩ <;> simp [lctInit, Vec.replicate, initNode]
  obtain ⟨P', hw⟩ := chainOps_run m (by omega) P e
  refine ⟨k, w, as, h, e, by simpa using hw, fun d hd => ?_⟩
  have hs := P'.shape
  rw [Nat.zero_add] at hs
  exact pushDownFromRoot_spine hs d 0 (Nat.zero_le _) (by omega)

end

/-- C56, the depth of the recursion. After a history on `n` nodes at most `n` calls of `push_down_from_root` are nested; and if recursions and
loops of the tree are stopped after `n + 1` rounds, the history runs as before. -/
theorem C56_depth_at_most (n : Nat) (ops : List (ForestOp ℤ)) (valid : Forest.Valid n Forest.init ops) :
    ∃ as h F, lctRun (n + 1) (lctInit n) ops = .ok (as, h) ∧ Forest.History n Forest.init ops as F ∧
      ∀ x, x < n → ∃ h', LCT.pushDownFromRoot n h x = .ok h' := by
  obtain ⟨as, h, F, e1, e2, e3, ⟨tr, I⟩⟩ := lctRun_spec (K := ℤ) (n := n) le_rfl ops (h := lctInit n) (F := Forest.init) rfl (LCT.rep_init n) valid
  refine ⟨as, h, F, e1, e2, fun x hx => ?_⟩
  have L := I.loc x (by omega)
  obtain ⟨a, b, c, hc⟩ := exists_focus (tr x) x L.mem
  have hlen := length_ctx_lt (node a x b) c
  simp only [io_node, List.length_append, List.length_cons] at hlen
  have h1 := L.shape
  have h2 := L.nodup
  have h3 := I.rootOK (by omega : x < h.size)
  have h4 := L.good
  have h5 := I.length_le (by omega : x < h.size)
  rw [← hc] at h1 h2 h3 h4 h5
  obtain ⟨h', e, -⟩ := pushDownFromRoot_spec c n h a x b h1 h2 h3 h4 (by omega)
  exact ⟨h', e⟩

/-- C56 is false: there is no constant `C` such that all sequences of valid operations on `n` nodes take at most
`C (number of operations + n) (log₂ n + 1)` steps, not even those in which every `set_fa` is followed by a walk from the same node. -/
theorem C56_not_logarithmic : ¬ ∃ C : Nat, ∀ (n : Nat) (ops : List (ForestOp ℤ)), Forest.Valid n Forest.init ops → Forest.Linked ops →
    ∀ fuel, n + 1 ≤ fuel → ∀ steps walk as h, lctRunC fuel (lctInit n) ops = .ok (steps, walk, as, h) →
      steps + walk ≤ C * (ops.length + n) * (Nat.log2 n + 1) := by
  rintro ⟨C, hC⟩
  let t := 12 * C + 2
  obtain ⟨m, hm⟩ : ∃ m, m + 1 = 2 ^ (2 * t) := ⟨2 ^ (2 * t) - 1, Nat.sub_add_cancel Nat.one_le_two_pow⟩
  obtain ⟨k, w, as, h, e, hw, -⟩ := C56_chain_is_quadratic (K := ℤ) m (m + 2) le_rfl
  have valid : Forest.Valid (m + 1) (Forest.init (K := ℤ)) (chainOps ℤ 0 m) :=
    chainOps_valid m 0 _ (by omega) (fun _ _ => rfl) fun _ _ h => by cases h
  have key := hC (m + 1) _ valid (chainOps_linked ℤ m 0) (m + 2) le_rfl k w as h e
  have hlog : Nat.log2 (m + 1) = 2 * t := by rw [hm, Nat.log2_two_pow]
  rw [chainOps_length, hlog] at key
  have h1 : t + 1 ≤ 2 ^ t := Nat.lt_two_pow_self
  have h2 : (t + 1) * (t + 1) ≤ m + 1 := by
    rw [hm, two_mul, pow_add]; exact Nat.mul_le_mul h1 h1
  have h3 : m * (m + 1) ≤ 6 * C * (2 * t + 1) * (m + 1) := by
    have : C * (2 * m + (m + 1)) * (2 * t + 1) ≤ C * (3 * (m + 1)) * (2 * t + 1) :=
      Nat.mul_le_mul (Nat.mul_le_mul le_rfl (by omega)) le_rfl
    nlinarith
  have h4 : m ≤ 6 * C * (2 * t + 1) := Nat.le_of_mul_le_mul_right h3 (by omega)
  have h5 : 12 * C + 2 = t := rfl
  nlinarith

/-- all operations, with links and cuts -/
def amOps : List (ForestOp ℤ) :=
  [.setVal 1 5, .setFa 1 0, .findRoot 1, .setFa 2 1, .getMin 2, .addVal 2 (-1), .getVal 1, .cut 1, .setFa 1 0, .cut 1]

theorem amOps_valid : Forest.Valid 3 Forest.init amOps ∧ Forest.Linked amOps := by
  exact ⟨⟨(by decide : 1 < 3), ⟨by decide, by decide, rfl, not_onWay_root rfl (by decide)⟩, (by decide : 1 < 3),
    ⟨by decide, by decide, rfl, not_onWay_step (p := 0) rfl (by decide) (not_onWay_root rfl (by decide))⟩,
    ⟨by decide, fun h => absurd (show some 1 = none from h) (by decide)⟩, (by decide : 2 < 3), (by decide : 1 < 3),
    ⟨by decide, fun h => absurd (show some 0 = none from h) (by decide)⟩,
    ⟨by decide, by decide, rfl, not_onWay_root rfl (by decide)⟩,
    ⟨by decide, fun h => absurd (show some 0 = none from h) (by decide)⟩, trivial⟩, ⟨rfl, rfl, rfl, trivial⟩⟩

/-- `amOps` meets the hypotheses of C57; its steps are 35 and its iterations 4. -/
example : Forest.Valid 3 Forest.init amOps ∧ Forest.Linked amOps ∧
    (match lctRunC 4 (lctInit 3) amOps with
      | .ok (k, w, _, _) => (k, w)
      | .error _ => (0, 0)) = (35, 4) :=
  ⟨amOps_valid.1, amOps_valid.2, by decide +kernel⟩

/-- `C57_access_amortised` for `amOps` -/
example := C57_access_amortised 3 amOps amOps_valid.1 amOps_valid.2 4 le_rfl

/-- `C56_depth_at_most` for `amOps` -/
example := C56_depth_at_most 3 amOps amOps_valid.1

/-- `C56_chain_is_quadratic` for seven nodes -/
example := C56_chain_is_quadratic (K := ℤ) 6 8 le_rfl

end AHO.Props
