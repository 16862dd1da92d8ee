import Verif.Proof.LCTTree
import Mathlib.Analysis.SpecialFunctions.Log.Base
import Mathlib.Tactic.Linarith
/-!
# Potential of splay trees

The potential of Sleator and Tarjan: the sum of the logarithms of the weights of all subtrees.
-/

namespace AHO.LCT
open AHO T

/-- weight of a tree -/
def sz (W : Nat → Nat) : T → Nat
  | .nil => 0
  | .node l x r => sz W l + W x + sz W r

/-- logarithm to base 2 -/
noncomputable def lg (k : Nat) : ℝ := Real.logb 2 k

/-- the potential of a tree -/
noncomputable def phi (W : Nat → Nat) : T → ℝ
  | .nil => 0
  | .node l x r => lg (sz W l + W x + sz W r) + phi W l + phi W r

theorem lg_mono {a b : Nat} (ha : 1 ≤ a) (h : a ≤ b) : lg a ≤ lg b := by
  unfold lg
  refine Real.logb_le_logb_of_le (by norm_num) ?_ (by exact_mod_cast h)
  exact_mod_cast ha

theorem lg_nonneg {a : Nat} (ha : 1 ≤ a) : 0 ≤ lg a := by
  unfold lg
  exact Real.logb_nonneg (by norm_num) (by exact_mod_cast ha)

@[simp] theorem lg_one : lg 1 = 0 := by simp [lg]

/-- the logarithm is concave -/
theorem lg_add {a b c : Nat} (ha : 1 ≤ a) (hb : 1 ≤ b) (h : a + b ≤ c) : lg a + lg b ≤ 2 * lg c - 2 := by
  have ha' : (0 : ℝ) < a := by exact_mod_cast ha
  have hb' : (0 : ℝ) < b := by exact_mod_cast hb
  have hc' : (0 : ℝ) < c := by exact_mod_cast (by omega : 0 < c)
  have h1 : (4 : ℝ) * (a * b) ≤ c ^ 2 := by
    have : (a : ℝ) + b ≤ c := by exact_mod_cast h
    nlinarith [sq_nonneg ((a : ℝ) - b)]
  have h2 : Real.logb 2 (4 * (a * b)) ≤ Real.logb 2 ((c : ℝ) ^ 2) :=
    Real.logb_le_logb_of_le (by norm_num) (by positivity) h1
  have h4 : Real.logb 2 (4 : ℝ) = 2 := by
    rw [show (4 : ℝ) = (2 : ℝ) ^ (2 : ℝ) by norm_num]
    exact Real.logb_rpow (by norm_num) (by norm_num)
  rw [Real.logb_mul (by norm_num) (by positivity), Real.logb_mul (by positivity) (by positivity), h4, Real.logb_pow] at h2
  unfold lg
  push_cast at h2
  linarith

theorem sz_nd (W : Nat → Nat) (d l x r) : sz W (nd d l x r) = sz W l + W x + sz W r := by
  cases d <;> simp only [nd_false, nd_true, sz]; omega

theorem phi_nd (W : Nat → Nat) (d l x r) : phi W (nd d l x r) = lg (sz W l + W x + sz W r) + phi W l + phi W r := by
  cases d
  · rfl
  · simp only [nd_true, phi]
    rw [show sz W r + W x + sz W l = sz W l + W x + sz W r by omega]
    ring

theorem sz_congr {W W' : Nat → Nat} {t : T} (h : ∀ k ∈ t.io, W k = W' k) : sz W t = sz W' t := by
  induction t with
  | nil => rfl
  | node l x r ihl ihr =>
    simp only [io_node, List.mem_append, List.mem_cons] at h
    simp only [sz]
    rw [ihl fun k hk => h k (.inl hk), ihr fun k hk => h k (.inr (.inr hk)), h x (.inr (.inl rfl))]

theorem phi_congr {W W' : Nat → Nat} {t : T} (h : ∀ k ∈ t.io, W k = W' k) : phi W t = phi W' t := by
  induction t with
  | nil => rfl
  | node l x r ihl ihr =>
    have h0 := h
    simp only [io_node, List.mem_append, List.mem_cons] at h
    simp only [phi]
    rw [ihl fun k hk => h k (.inl hk), ihr fun k hk => h k (.inr (.inr hk)), h x (.inr (.inl rfl)),
      sz_congr (t := l) fun k hk => h k (.inl hk), sz_congr (t := r) fun k hk => h k (.inr (.inr hk))]

theorem sz_io (W : Nat → Nat) (t : T) : sz W t = (t.io.map W).sum := by
  induction t with
  | nil => rfl
  | node l x r ihl ihr => simp only [sz, io_node, List.map_append, List.map_cons, List.sum_append, List.sum_cons, ihl, ihr]; omega

theorem phi_nonneg {W : Nat → Nat} {t : T} (h : ∀ k ∈ t.io, 1 ≤ W k) : 0 ≤ phi W t := by
  induction t with
  | nil => exact le_rfl
  | node l x r ihl ihr =>
    simp only [io_node, List.mem_append, List.mem_cons] at h
    have h1 := ihl fun k hk => h k (.inl hk)
    have h2 := ihr fun k hk => h k (.inr (.inr hk))
    have h3 := h x (.inr (.inl rfl))
    have h4 : 0 ≤ lg (sz W l + W x + sz W r) := lg_nonneg (by omega)
    simp only [phi]
    linarith

/-- the subtrees on the way up depend on the weight only -/
theorem sz_plug {W : Nat → Nat} {t t' : T} (h : sz W t = sz W t') (c) : sz W (plug t c) = sz W (plug t' c) := by
  induction c generalizing t t' with
  | nil => exact h
  | cons fr c ih =>
    obtain ⟨d, y, s⟩ := fr
    exact ih (by rw [sz_nd, sz_nd, h])

theorem sz_le_plug (W : Nat → Nat) (t : T) (c) : sz W t ≤ sz W (plug t c) := by
  induction c generalizing t with
  | nil => exact le_rfl
  | cons fr c ih =>
    obtain ⟨d, y, s⟩ := fr
    have := ih (nd d t y s)
    rw [sz_nd] at this
    simp only [plug_cons]
    omega

theorem phi_plug {W : Nat → Nat} {t t' : T} (h : sz W t = sz W t') (c) :
    phi W (plug t c) - phi W t = phi W (plug t' c) - phi W t' := by
  induction c generalizing t t' with
  | nil => simp
  | cons fr c ih =>
    obtain ⟨d, y, s⟩ := fr
    have := ih (t := nd d t y s) (t' := nd d t' y s) (by rw [sz_nd, sz_nd, h])
    rw [phi_nd, phi_nd, h] at this
    simp only [plug_cons]
    linarith

/-- zig -/
theorem phi_zig {W : Nat → Nat} {d a x b y s} (hx : 1 ≤ W x) (hy : 1 ≤ W y) :
    phi W (nd d a x (nd d b y s)) ≤ phi W (nd d (nd d a x b) y s) + (lg (sz W (nd d (nd d a x b) y s)) - lg (sz W (nd d a x b))) := by
  simp only [phi_nd, sz_nd]
  have h1 : lg (sz W a + W x + (sz W b + W y + sz W s)) = lg (sz W a + W x + sz W b + W y + sz W s) := by
    congr 1; omega
  have h2 : lg (sz W b + W y + sz W s) ≤ lg (sz W a + W x + sz W b + W y + sz W s) := lg_mono (by omega) (by omega)
  rw [h1]
  linarith

/-- zig-zig -/
theorem phi_zigzig {W : Nat → Nat} {d a x b y s z s2} (hx : 1 ≤ W x) (hy : 1 ≤ W y) (hz : 1 ≤ W z) :
    phi W (nd d a x (nd d b y (nd d s z s2))) + 2 ≤ phi W (nd d (nd d (nd d a x b) y s) z s2) +
      3 * (lg (sz W (nd d (nd d (nd d a x b) y s) z s2)) - lg (sz W (nd d a x b))) := by
  simp only [phi_nd, sz_nd]
  obtain ⟨S, hS⟩ : ∃ S, S = sz W a + W x + sz W b + W y + sz W s + W z + sz W s2 := ⟨_, rfl⟩
  rw [show sz W a + W x + (sz W b + W y + (sz W s + W z + sz W s2)) = S by omega, ← hS]
  have h2 : lg (sz W b + W y + (sz W s + W z + sz W s2)) ≤ lg S := lg_mono (by omega) (by omega)
  have h3 := lg_add (a := sz W a + W x + sz W b) (b := sz W s + W z + sz W s2) (c := S) (by omega) (by omega) (by omega)
  have h4 : lg (sz W a + W x + sz W b) ≤ lg (sz W a + W x + sz W b + W y + sz W s) := lg_mono (by omega) (by omega)
  linarith

/-- zig-zag -/
theorem phi_zigzag {W : Nat → Nat} {d a x b y s z s2} (hx : 1 ≤ W x) (hy : 1 ≤ W y) (hz : 1 ≤ W z) :
    phi W (nd (!d) (nd d b y s) x (nd (!d) a z s2)) + 2 ≤ phi W (nd (!d) (nd d (nd d a x b) y s) z s2) +
      3 * (lg (sz W (nd (!d) (nd d (nd d a x b) y s) z s2)) - lg (sz W (nd d a x b))) := by
  simp only [phi_nd, sz_nd]
  obtain ⟨S, hS⟩ : ∃ S, S = sz W a + W x + sz W b + W y + sz W s + W z + sz W s2 := ⟨_, rfl⟩
  rw [show sz W b + W y + sz W s + W x + (sz W a + W z + sz W s2) = S by omega, ← hS]
  have h3 := lg_add (a := sz W b + W y + sz W s) (b := sz W a + W z + sz W s2) (c := S) (by omega) (by omega) (by omega)
  have h4 : lg (sz W a + W x + sz W b) ≤ lg (sz W a + W x + sz W b + W y + sz W s) := lg_mono (by omega) (by omega)
  have h5 : lg (sz W a + W x + sz W b) ≤ lg S := lg_mono (by omega) (by omega)
  linarith

/-! ### Weights from the sizes of the subtrees of the forest -/

/-- value of `R` at the first element -/
def hdR (R : Nat → Nat) : List Nat → Nat
  | [] => 0
  | k :: _ => R k

/-- value of `R` at the element which follows `k` -/
def nxR (R : Nat → Nat) : List Nat → Nat → Nat
  | [], _ => 0
  | y :: l, k => if y = k then hdR R l else nxR R l k

/-- weight of `k` in a path: the part of the subtree of `k` outside the path below `k` -/
def wt (R : Nat → Nat) (l : List Nat) (k : Nat) : Nat := R k - nxR R l k

theorem nxR_append_left {R : Nat → Nat} {l : List Nat} {p : Nat} {l' : List Nat} {k : Nat} (hk : k ∈ l) :
    nxR R (l ++ p :: l') k = nxR R (l ++ [p]) k := by
  induction l with
  | nil => cases hk
  | cons y l ih =>
    simp only [List.cons_append, nxR]
    split
    · cases l <;> rfl
    · next hne => exact ih ((List.mem_cons.1 hk).resolve_left fun e => hne e.symm)

theorem nxR_append_right {R : Nat → Nat} {l l' : List Nat} {k : Nat} (hk : k ∉ l) : nxR R (l ++ l') k = nxR R l' k := by
  induction l with
  | nil => rfl
  | cons y l ih =>
    rw [List.mem_cons, not_or] at hk
    simp only [List.cons_append, nxR]
    rw [if_neg fun e => hk.1 e.symm, ih hk.2]

/-- `R` decreases along the path -/
def Dec (R : Nat → Nat) (l : List Nat) : Prop := l.IsChain fun a b => R b + 1 ≤ R a

theorem nxR_lt {R : Nat → Nat} {l : List Nat} (h : Dec R l) {k : Nat} (hk : k ∈ l) (hp : 1 ≤ R k) : nxR R l k + 1 ≤ R k := by
  induction l with
  | nil => cases hk
  | cons y l ih =>
    simp only [nxR]
    split
    · next e =>
      subst e
      cases l with
      | nil => simp only [hdR]; omega
      | cons z l => exact (List.isChain_cons_cons.1 h).1
    · next hne => exact ih h.tail ((List.mem_cons.1 hk).resolve_left fun e => hne e.symm)

theorem wt_pos {R : Nat → Nat} {l : List Nat} (h : Dec R l) {k : Nat} (hk : k ∈ l) (hp : 1 ≤ R k) : 1 ≤ wt R l k := by
  have := nxR_lt h hk hp
  unfold wt
  omega

theorem wt_cons {R : Nat → Nat} {y : Nat} {l : List Nat} {k : Nat} (h : k ≠ y) : wt R (y :: l) k = wt R l k := by
  unfold wt
  rw [nxR, if_neg fun e => h e.symm]

theorem wt_sum {R : Nat → Nat} {l : List Nat} (hn : l.Nodup) (h : Dec R l) : (l.map (wt R l)).sum = hdR R l := by
  induction l with
  | nil => rfl
  | cons y l ih =>
    rw [List.nodup_cons] at hn
    have h1 : l.map (wt R (y :: l)) = l.map (wt R l) :=
      List.map_congr_left fun k hk => wt_cons (by rintro rfl; exact hn.1 hk)
    rw [List.map_cons, List.sum_cons, h1, ih hn.2 h.tail]
    have h2 : hdR R l ≤ R y := by
      cases l with
      | nil => exact Nat.zero_le _
      | cons z l => have := (List.isChain_cons_cons.1 h).1; simp only [hdR]; omega
    unfold wt
    rw [nxR, if_pos rfl]
    simp only [hdR] at h2 ⊢
    omega

/-- potential of an auxiliary tree -/
noncomputable def phiR (R : Nat → Nat) (t : T) : ℝ := phi (wt R t.io) t

theorem sz_wt {R : Nat → Nat} {t : T} (hn : t.io.Nodup) (h : Dec R t.io) : sz (wt R t.io) t = hdR R t.io := by
  rw [sz_io, wt_sum hn h]

end AHO.LCT
