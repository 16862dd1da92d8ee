import Verif.Model.SimpleCost
import Verif.Proof.CSCost
import Mathlib.Data.Nat.Size
import Mathlib.Tactic.Ring
import Mathlib.Algebra.Order.Ring.Int
/-!
# Evaluations of cost functions by `SimpleSolver::Solve`
-/

namespace AHO
namespace SimpleSolver
set_option linter.unusedSectionVars false
variable {D : Type} [Zero D] [One D] [Add D] [Sub D] [Neg D] [Mul D] [Div D] [IntCast D] [LT D] [LE D] [DecidableLT D]
  [DecidableLE D] [BEq D]
variable {imax : Int} {fuel : Nat}

/-! ## Without the counter -/

def FnC.plain (f : FnC D) : Fn D := fun x => (f x).map Prod.snd

theorem plain_er (f : FnC D) (x : Int) : Er (f x) (FnC.plain f x) := rfl

theorem tick_plain (f : Fn D) : FnC.plain (tick f) = f := by
  funext x
  exact (Er.count (x := f x) 1 : Er (tick f x) (f x))

theorem bijC_er (imax : Int) (f : FnC D) (l r x : Int) : Er (bijC imax f l r x) (bij imax (FnC.plain f) l r x) := by
  unfold bijC bij
  split
  · exact .ok _ _
  · split
    · exact .ok _ _
    · exact .bind' fun x1 => (plain_er f x1).bind fun k a => (plain_er f x).bind fun k' b => .ok _ _

theorem ternaryC_er (imax : Int) (f : FnC D) : ∀ (fuel : Nat) (l r : Int), Er (ternaryC imax f fuel l r) (ternary imax (FnC.plain f) fuel l r) := by
  intro fuel
  induction fuel with
  | zero => intro l r; exact .error _
  | succ fuel ih =>
    intro l r
    unfold ternaryC ternary
    split
    · refine .bind' fun d => .bind' fun lmid => .bind' fun rmid => (plain_er f lmid).bind fun k a => (plain_er f rmid).bind fun k' b => ?_
      dsimp only
      split
      · exact .bind' fun r' => (ih _ _).recount (fun c => k + k' + c)
      · exact .bind' fun r' => (ih _ _).recount (fun c => k + k' + c)
    · exact (plain_er f l).bind fun k a => (plain_er f r).bind fun k' b => .ok _ _

theorem suffixMinC_plain (imax : Int) (fuel : Nat) (e : OmegaLimit D) : FnC.plain (suffixMinC imax fuel e) = suffixMin imax fuel e := by
  funext x
  have := ternaryC_er imax (tick e.fn) fuel (max e.l x) e.u
  rw [tick_plain] at this
  exact this

theorem splitAtC_er (imax : Int) (f : FnC D) (l r : Int) (u v : Nat) (j : Int) :
    Er (splitAtC imax f l r u v j) (splitAt imax (FnC.plain f) l r u v j) := by
  unfold splitAtC splitAt
  refine .bind' fun j1 => (bijC_er _ _ _ _ _).bind fun k a => (bijC_er _ _ _ _ _).bind fun k' b => ?_
  dsimp only
  split
  · exact .ok _ _
  · refine .bind' fun nj => ?_
    split
    · exact .ok _ _
    · exact .ok _ _

theorem splitC_er (imax : Int) (fuel : Nat) (f : FnC D) (l r : Int) (u v : Nat) (edge : List (InputEdge D)) :
    Er (splitC imax fuel f l r u v edge) (split imax fuel (FnC.plain f) l r u v edge) := by
  unfold splitC split
  refine (whileLoop_er (γ := Nat) (α := Int × List (InputEdge D)) (cond' := fun s => .ok (decide (s.1 ≤ r)))
    (body' := fun s => do
      let es ← splitAt imax (FnC.plain f) l r u v s.1
      let j ← ck imax (s.1 + 1)
      .ok (j, s.2 ++ es)) (fun _ => rfl) (fun s => ?_) fuel (0, l, edge)).bind fun c s => .ok _ _
  exact (splitAtC_er _ _ _ _ _ _ _).bind fun k es => .bind' fun j => .ok _ _

def StateC.plain (s : StateC D) : State D := ⟨s.parts.map fun x => (FnC.plain x.1, x.2), s.edge, s.mx⟩

/-- as `Er`, and the result erased by `φ` -/
def ErF {γ α β : Type} (φ : α → β) (x : Res (γ × α)) (y : Res β) : Prop := x.map (fun a => φ a.2) = y

theorem ErF.bind' {γ α β δ : Type} {φ : α → β} {x : Res δ} {f : δ → Res (γ × α)} {g : δ → Res β} (h : ∀ a, ErF φ (f a) (g a)) :
    ErF φ (x >>= f) (x >>= g) := by
  cases x with
  | error e => rfl
  | ok a => exact h a

theorem Er.bindF {γ γ' α β δ : Type} {φ : α → β} {x : Res (γ' × δ)} {y : Res δ} {f : γ' × δ → Res (γ × α)} {g : δ → Res β}
    (hx : Er x y) (h : ∀ k a, ErF φ (f (k, a)) (g a)) : ErF φ (x >>= f) (y >>= g) := by
  cases x with
  | error e => cases hx; rfl
  | ok a => cases hx; exact h a.1 a.2

theorem ErF.recount {γ δ α β : Type} {φ : α → β} {x : Res (γ × α)} {y : Res β} (h : ErF φ x y) (f : γ → δ) :
    ErF φ (x >>= fun s => .ok (f s.1, s.2)) y := by
  cases x with
  | error e => cases h; rfl
  | ok a => cases h; rfl

theorem ErF.bindE {γ γ' α β δ : Type} {φ : α → β} {x : Res (γ × α)} {y : Res β} {f : γ × α → Res (γ' × δ)} {g : β → Res δ}
    (hx : ErF φ x y) (h : ∀ k a, Er (f (k, a)) (g (φ a))) : Er (x >>= f) (y >>= g) := by
  cases x with
  | error e => cases hx; rfl
  | ok a => cases hx; exact h a.1 a.2

theorem nodesC_er (imax : Int) (fuel : Nat) (node : List (MuLimit D)) : ∀ (cnt i : Nat) (s : StateC D),
    ErF (Option.map StateC.plain) (nodesC imax fuel node cnt i s) (nodes imax fuel node cnt i s.plain) := by
  intro cnt
  induction cnt with
  | zero => intro i s; rfl
  | succ cnt ih =>
    intro i s
    unfold nodesC nodes
    refine .bind' fun e => ?_
    split
    · rfl
    · refine .bind' fun a => .bind' fun b => ?_
      have h := splitC_er imax fuel (tick e.fn) e.l e.u i 0 s.edge
      rw [tick_plain] at h
      refine Er.bindF h fun k edge => ?_
      have h2 := ih (i + 1) ⟨s.parts ++ [(tick e.fn, e.l, e.u)], edge, s.mx + dmax a b⟩
      have h3 : StateC.plain ⟨s.parts ++ [(tick e.fn, e.l, e.u)], edge, s.mx + dmax a b⟩ =
          ⟨s.plain.parts ++ [(e.fn, e.l, e.u)], edge, s.plain.mx + dmax a b⟩ := by
        unfold StateC.plain
        rw [List.map_append, List.map_cons, List.map_nil, tick_plain]
      rw [h3] at h2
      exact h2.recount (fun c => 2 + k + c)

theorem pairsC_er (imax : Int) (fuel : Nat) (node : List (MuLimit D)) : ∀ (es : List (OmegaLimit D)) (s : StateC D),
    ErF (Option.map StateC.plain) (pairsC imax fuel node es s) (pairs imax fuel node es s.plain) := by
  intro es
  induction es with
  | nil => intro s; rfl
  | cons e es ih =>
    intro s
    unfold pairsC pairs
    split
    · rfl
    · refine .bind' fun a => .bind' fun b => .bind' fun mi => .bind' fun mj => .bind' fun d => .bind' fun _ => .bind' fun _ => ?_
      have h := splitC_er imax fuel (suffixMinC imax fuel e) (min e.l d) e.u e.i e.j s.edge
      rw [suffixMinC_plain] at h
      refine Er.bindF h fun k edge => ?_
      have h2 := ih ⟨s.parts ++ [(suffixMinC imax fuel e, min e.l d, e.u)], edge, s.mx + dmax a b⟩
      have h3 : StateC.plain ⟨s.parts ++ [(suffixMinC imax fuel e, min e.l d, e.u)], edge, s.mx + dmax a b⟩ =
          ⟨s.plain.parts ++ [(suffixMin imax fuel e, min e.l d, e.u)], edge, s.plain.mx + dmax a b⟩ := by
        unfold StateC.plain
        rw [List.map_append, List.map_cons, List.map_nil, suffixMinC_plain]
      rw [h3] at h2
      exact h2.recount (fun c => 2 + k + c)

theorem addMinimaC_er (imax : Int) (fuel : Nat) : ∀ (ps : List (FnC D × Int × Int)) (res : D),
    Er (addMinimaC imax fuel ps res) (addMinima imax fuel (ps.map fun x => (FnC.plain x.1, x.2)) res) := by
  intro ps
  induction ps with
  | nil => intro res; exact .ok _ _
  | cons p ps ih =>
    intro res
    obtain ⟨f, l, r⟩ := p
    unfold addMinimaC addMinima
    exact (ternaryC_er _ _ _ _ _).bind fun k m => (ih _).recount (fun c => k + c)

theorem solveC_er (imax : Int) (fuel : Nat) (n : Nat) (node : List (MuLimit D)) (edge : List (OmegaLimit D)) :
    Er (solveC imax fuel n node edge) (solve imax fuel n node edge) := by
  unfold solveC solve
  refine ErF.bindE (nodesC_er imax fuel node n 1 ⟨[], [], 0⟩) fun k1 s => ?_
  cases s with
  | none => exact .ok _ _
  | some s =>
    refine ErF.bindE (pairsC_er imax fuel node edge s) fun k2 s => ?_
    cases s with
    | none => exact .ok _ _
    | some s =>
      refine .bind' fun n1 => (CostScaling.minCostC_er _ _ _ _).bind fun c x => (addMinimaC_er _ _ _ _).bind fun k3 res => ?_
      dsimp only
      show Er (if s.mx < res then _ else _) (if s.mx < res then _ else _)
      split
      · exact .ok _ _
      · exact .ok _ _

/-! ## Bounds -/

/-- a call makes at most `B` evaluations -/
def Atmost (f : FnC D) (B : Nat) : Prop := ∀ x k y, f x = .ok (k, y) → k ≤ B

theorem tick_atmost (f : Fn D) : Atmost (tick f) 1 := by
  intro x k y h
  obtain ⟨z, -, h⟩ := bind_eq_ok.1 h
  cases h
  exact le_rfl

theorem bijC_count {f : FnC D} {B : Nat} (hf : Atmost f B) {l r x : Int} {k : Nat} {y : D} (h : bijC imax f l r x = .ok (k, y)) : k ≤ 2 * B := by
  unfold bijC at h
  split at h
  · cases h; exact Nat.zero_le _
  · split at h
    · cases h; exact Nat.zero_le _
    · obtain ⟨x1, -, h⟩ := bind_eq_ok.1 h
      obtain ⟨⟨k1, a⟩, h1, h⟩ := bind_eq_ok.1 h
      obtain ⟨⟨k2, b⟩, h2, h⟩ := bind_eq_ok.1 h
      cases h
      have := hf _ _ _ h1
      have := hf _ _ _ h2
      omega

theorem ck_val {x y : Int} (h : ck imax x = .ok y) : y = x := by
  unfold ck at h
  split at h
  · cases h; rfl
  · cases h

theorem shrink {d : Int} {p : Nat} (hd : 0 < d) (h : d * 2 ^ p < 3 ^ p) : ∃ q, p = q + 1 ∧ (d - d.tdiv 3 - 1) * 2 ^ q < 3 ^ q := by
  cases p with
  | zero => simp at h; omega
  | succ q =>
    refine ⟨q, rfl, ?_⟩
    rw [Int.tdiv_eq_ediv_of_nonneg hd.le]
    have h2 : (0 : Int) < 2 ^ q := pow_pos (by decide) _
    have h1 : 3 * (d - d / 3 - 1) ≤ 2 * d := by omega
    have h3 := Int.mul_le_mul_of_nonneg_right h1 h2.le
    rw [pow_succ, pow_succ] at h
    have e1 : 3 * (d - d / 3 - 1) * 2 ^ q = 3 * ((d - d / 3 - 1) * 2 ^ q) := Int.mul_assoc _ _ _
    have e2 : 2 * d * 2 ^ q = d * (2 ^ q * 2) := by ring
    rw [e1, e2] at h3
    omega

theorem ternaryC_count {f : FnC D} {B : Nat} (hf : Atmost f B) : ∀ (fuel p : Nat) (l r : Int) {k : Nat} {y : D}, (r - l) * 2 ^ p < 3 ^ p →
    ternaryC imax f fuel l r = .ok (k, y) → k ≤ 2 * (p + 1) * B := by
  intro fuel
  induction fuel with
  | zero => intro p l r k y _ h; cases h
  | succ fuel ih =>
    intro p l r k y hp h
    unfold ternaryC at h
    split at h
    · rename_i hlr
      obtain ⟨d, hd, h⟩ := bind_eq_ok.1 h
      obtain ⟨lmid, hl, h⟩ := bind_eq_ok.1 h
      obtain ⟨rmid, hr, h⟩ := bind_eq_ok.1 h
      obtain ⟨⟨k1, a⟩, h1, h⟩ := bind_eq_ok.1 h
      obtain ⟨⟨k2, b⟩, h2, h⟩ := bind_eq_ok.1 h
      have hd := ck_val hd
      have hl := ck_val hl
      have hr := ck_val hr
      rw [hd] at hl hr
      clear hd
      obtain ⟨q, rfl, hq⟩ := shrink (d := r - l) (by omega) hp
      have g1 := hf _ _ _ h1
      have g2 := hf _ _ _ h2
      have hB : 2 * (q + 1 + 1) * B = 2 * (q + 1) * B + 2 * B := by ring
      dsimp only at h
      split at h
      · obtain ⟨r', hr', h⟩ := bind_eq_ok.1 h
        obtain ⟨⟨c, z⟩, h3, h⟩ := bind_eq_ok.1 h
        cases h
        have hr' := ck_val hr'
        have := ih q l r' (by rw [show r' - l = r - l - (r - l).tdiv 3 - 1 by omega]; exact hq) h3
        omega
      · obtain ⟨l', hl', h⟩ := bind_eq_ok.1 h
        obtain ⟨⟨c, z⟩, h3, h⟩ := bind_eq_ok.1 h
        cases h
        have hl' := ck_val hl'
        have := ih q l' r (by rw [show r - l' = r - l - (r - l).tdiv 3 - 1 by omega]; exact hq) h3
        omega
    · obtain ⟨⟨k1, a⟩, h1, h⟩ := bind_eq_ok.1 h
      obtain ⟨⟨k2, b⟩, h2, h⟩ := bind_eq_ok.1 h
      cases h
      have g1 := hf _ _ _ h1
      have g2 := hf _ _ _ h2
      have hB : 2 * (p + 1) * B = 2 * p * B + 2 * B := by ring
      have := Nat.zero_le (2 * p * B)
      omega

/-- evaluations in one ternary search over a range of length `W` -/
def searchEvals (W : Nat) : Nat := 4 * W.size + 2

theorem search_pow {d : Int} {W : Nat} (h : d ≤ W) : d * 2 ^ (2 * W.size) < 3 ^ (2 * W.size) := by
  have h1 : (W : Int) < 2 ^ W.size := by exact_mod_cast Nat.lt_size_self W
  have h2 : (0 : Int) < 2 ^ (2 * W.size) := pow_pos (by decide) _
  calc d * 2 ^ (2 * W.size) ≤ W * 2 ^ (2 * W.size) := Int.mul_le_mul_of_nonneg_right h h2.le
    _ < 2 ^ W.size * 2 ^ (2 * W.size) := Int.mul_lt_mul_of_pos_right h1 h2
    _ = 8 ^ W.size := by rw [← pow_add, show W.size + 2 * W.size = 3 * W.size by omega, pow_mul]; norm_num
    _ ≤ 9 ^ W.size := by
      have : 8 ^ W.size ≤ 9 ^ W.size := Nat.pow_le_pow_left (by decide) _
      exact_mod_cast this
    _ = 3 ^ (2 * W.size) := by rw [pow_mul]; norm_num

theorem search_count {f : FnC D} {B W : Nat} (hf : Atmost f B) {l r : Int} (hW : r - l ≤ W) {k : Nat} {y : D}
    (h : ternaryC imax f fuel l r = .ok (k, y)) : k ≤ searchEvals W * B := by
  have := ternaryC_count hf fuel (2 * W.size) l r (search_pow hW) h
  unfold searchEvals
  rwa [show 2 * (2 * W.size + 1) = 4 * W.size + 2 by ring] at this

theorem suffixMinC_atmost {e : OmegaLimit D} {W : Nat} (hW : e.u - e.l ≤ W) : Atmost (suffixMinC imax fuel e) (searchEvals W) := by
  intro x k y h
  have := search_count (tick_atmost e.fn) (W := W) (by omega) h
  omega

theorem splitAtC_count {f : FnC D} {B : Nat} (hf : Atmost f B) {l r : Int} {u v : Nat} {j : Int} {k : Nat} {es : List (InputEdge D)}
    (h : splitAtC imax f l r u v j = .ok (k, es)) : k ≤ 4 * B := by
  unfold splitAtC at h
  obtain ⟨j1, -, h⟩ := bind_eq_ok.1 h
  obtain ⟨⟨k1, a⟩, h1, h⟩ := bind_eq_ok.1 h
  obtain ⟨⟨k2, b⟩, h2, h⟩ := bind_eq_ok.1 h
  have g1 := bijC_count hf h1
  have g2 := bijC_count hf h2
  dsimp only at h
  split at h
  · cases h; omega
  · obtain ⟨nj, -, h⟩ := bind_eq_ok.1 h
    split at h
    · cases h; omega
    · cases h; omega

theorem splitLoop_count {f : FnC D} {B : Nat} (hf : Atmost f B) {l r : Int} {u v : Nat} : ∀ (fuel : Nat) (s s' : Nat × Int × List (InputEdge D)),
    whileLoop (fun (s : Nat × Int × List (InputEdge D)) => .ok (decide (s.2.1 ≤ r)))
      (fun s => do
        let (k, es) ← splitAtC imax f l r u v s.2.1
        let j ← ck imax (s.2.1 + 1)
        .ok (s.1 + k, j, s.2.2 ++ es)) fuel s = .ok s' → s'.1 ≤ s.1 + (r + 1 - s.2.1).toNat * (4 * B) := by
  intro fuel
  induction fuel with
  | zero => intro s s' h; cases h
  | succ fuel ih =>
    intro s s' h
    unfold whileLoop at h
    simp only [ok_bind] at h
    split at h
    · rename_i hc
      have hc := of_decide_eq_true hc
      obtain ⟨s1, h1, h⟩ := bind_eq_ok.1 h
      obtain ⟨⟨k, es⟩, h2, h1⟩ := bind_eq_ok.1 h1
      obtain ⟨j, hj, h1⟩ := bind_eq_ok.1 h1
      cases h1
      have hj := ck_val hj
      have g1 := ih _ _ h
      have g2 := splitAtC_count hf h2
      dsimp only at g1
      rw [show (r + 1 - s.2.1).toNat = (r + 1 - j).toNat + 1 by omega, Nat.succ_mul]
      omega
    · cases h
      exact Nat.le_add_right _ _

theorem splitC_count {f : FnC D} {B W : Nat} (hf : Atmost f B) {l r : Int} {u v : Nat} (hW : r - l ≤ W) {edge es : List (InputEdge D)} {k : Nat}
    (h : splitC imax fuel f l r u v edge = .ok (k, es)) : k ≤ 4 * (W + 1) * B := by
  unfold splitC at h
  obtain ⟨s, h1, h⟩ := bind_eq_ok.1 h
  cases h
  have g := splitLoop_count hf _ _ _ h1
  dsimp only at g
  have h2 : (r + 1 - l).toNat * (4 * B) ≤ (W + 1) * (4 * B) := Nat.mul_le_mul_right _ (by omega)
  have h3 : 4 * (W + 1) * B = (W + 1) * (4 * B) := by ring
  omega

/-- the parts which the last loop searches -/
def PartsIn (ps : List (FnC D × Int × Int)) (B W : Nat) : Prop := ∀ x ∈ ps, Atmost x.1 B ∧ x.2.2 - x.2.1 ≤ W

theorem nodesC_count {node : List (MuLimit D)} {W : Nat} (hW : ∀ i (h : i < node.length), 1 ≤ i → node[i].u - node[i].l ≤ W) :
    ∀ (cnt i : Nat) (s : StateC D) {k : Nat} {r : Option (StateC D)}, 1 ≤ i → nodesC imax fuel node cnt i s = .ok (k, r) →
      k ≤ cnt * (4 * (W + 1) + 2) ∧ ∀ s', r = some s' → ∃ ps, s'.parts = s.parts ++ ps ∧ ps.length = cnt ∧ PartsIn ps 1 W := by
  intro cnt
  induction cnt with
  | zero =>
    intro i s k r hi h
    cases h
    exact ⟨Nat.zero_le _, fun s' h => by cases h; exact ⟨[], by simp, rfl, fun x hx => by cases hx⟩⟩
  | succ cnt ih =>
    intro i s k r hi h
    unfold nodesC at h
    obtain ⟨e, he, h⟩ := bind_eq_ok.1 h
    have heW : e.u - e.l ≤ W := by
      unfold listRd at he
      split at he
      · rename_i hx
        cases he
        obtain ⟨hlt, rfl⟩ := List.getElem?_eq_some_iff.1 hx
        exact hW i hlt hi
      · cases he
    split at h
    · cases h
      exact ⟨Nat.zero_le _, fun s' h => by cases h⟩
    · obtain ⟨a, -, h⟩ := bind_eq_ok.1 h
      obtain ⟨b, -, h⟩ := bind_eq_ok.1 h
      obtain ⟨⟨k1, edge⟩, h1, h⟩ := bind_eq_ok.1 h
      obtain ⟨⟨c, r'⟩, h2, h⟩ := bind_eq_ok.1 h
      cases h
      have g1 := splitC_count (tick_atmost e.fn) heW h1
      obtain ⟨g2, g3⟩ := ih _ _ (by omega) h2
      refine ⟨by rw [Nat.succ_mul]; omega, fun s' hs' => ?_⟩
      obtain ⟨ps, p1, p2, p3⟩ := g3 s' hs'
      refine ⟨(tick e.fn, e.l, e.u) :: ps, by rw [p1]; simp, by rw [List.length_cons, p2], fun x hx => ?_⟩
      rcases List.mem_cons.1 hx with rfl | hx
      · exact ⟨tick_atmost _, heW⟩
      · exact p3 x hx

theorem pairsC_count {node : List (MuLimit D)} {W : Nat} : ∀ (es : List (OmegaLimit D)) (s : StateC D) {k : Nat} {r : Option (StateC D)},
    (∀ e ∈ es, e.u - e.l ≤ W ∧ ∀ mi mj, node[e.i]? = some mi → node[e.j]? = some mj → e.u - (mi.l - mj.u) ≤ W) →
    pairsC imax fuel node es s = .ok (k, r) →
      k ≤ es.length * (4 * (W + 1) * searchEvals W + 2) ∧
      ∀ s', r = some s' → ∃ ps, s'.parts = s.parts ++ ps ∧ ps.length = es.length ∧ PartsIn ps (searchEvals W) W := by
  intro es
  induction es with
  | nil =>
    intro s k r hW h
    cases h
    exact ⟨Nat.zero_le _, fun s' h => by cases h; exact ⟨[], by simp, rfl, fun x hx => by cases hx⟩⟩
  | cons e es ih =>
    intro s k r hW h
    obtain ⟨w1, w2⟩ := hW e (by simp)
    unfold pairsC at h
    split at h
    · cases h
      exact ⟨Nat.zero_le _, fun s' h => by cases h⟩
    · obtain ⟨a, -, h⟩ := bind_eq_ok.1 h
      obtain ⟨b, -, h⟩ := bind_eq_ok.1 h
      obtain ⟨mi, hmi, h⟩ := bind_eq_ok.1 h
      obtain ⟨mj, hmj, h⟩ := bind_eq_ok.1 h
      obtain ⟨d, hd, h⟩ := bind_eq_ok.1 h
      obtain ⟨-, -, h⟩ := bind_eq_ok.1 h
      obtain ⟨-, -, h⟩ := bind_eq_ok.1 h
      obtain ⟨⟨k1, edge⟩, h1, h⟩ := bind_eq_ok.1 h
      obtain ⟨⟨c, r'⟩, h2, h⟩ := bind_eq_ok.1 h
      cases h
      have hd := ck_val hd
      have rd : ∀ {i : Nat} {m : MuLimit D}, listRd node i = .ok m → node[i]? = some m := by
        intro i m hm
        unfold listRd at hm
        split at hm
        · rename_i hx; cases hm; exact hx
        · cases hm
      have hl : e.u - min e.l d ≤ W := by
        have := w2 mi mj (rd hmi) (rd hmj)
        omega
      have g1 := splitC_count (suffixMinC_atmost w1) hl h1
      obtain ⟨g2, g3⟩ := ih _ (fun e he => hW e (List.mem_cons_of_mem _ he)) h2
      refine ⟨by rw [List.length_cons, Nat.succ_mul]; omega, fun s' hs' => ?_⟩
      obtain ⟨ps, p1, p2, p3⟩ := g3 s' hs'
      refine ⟨(suffixMinC imax fuel e, min e.l d, e.u) :: ps, by rw [p1]; simp, by rw [List.length_cons, p2, List.length_cons], fun x hx => ?_⟩
      rcases List.mem_cons.1 hx with rfl | hx
      · exact ⟨suffixMinC_atmost w1, hl⟩
      · exact p3 x hx

theorem addMinimaC_count {B W : Nat} (qs : List (FnC D × Int × Int)) (E : Nat)
    (hq : ∀ (res : D) {k : Nat} {y : D}, addMinimaC imax fuel qs res = .ok (k, y) → k ≤ E) :
    ∀ (ps : List (FnC D × Int × Int)), PartsIn ps B W → ∀ (res : D) {k : Nat} {y : D}, addMinimaC imax fuel (ps ++ qs) res = .ok (k, y) →
      k ≤ ps.length * (searchEvals W * B) + E := by
  intro ps
  induction ps with
  | nil =>
    intro _ res k y h
    have := hq res h
    simpa using this
  | cons p ps ih =>
    intro hp res k y h
    obtain ⟨f, l, r⟩ := p
    obtain ⟨h1, h2⟩ := hp (f, l, r) (by simp)
    rw [List.cons_append] at h
    unfold addMinimaC at h
    obtain ⟨⟨k1, m⟩, h3, h⟩ := bind_eq_ok.1 h
    obtain ⟨⟨c, z⟩, h4, h⟩ := bind_eq_ok.1 h
    cases h
    have g1 := search_count h1 h2 h3
    have g2 := ih (fun x hx => hp x (List.mem_cons_of_mem _ hx)) _ h4
    rw [List.length_cons, Nat.succ_mul]
    omega

/-- most evaluations in a run on `n` nodes and `m` pairs whose ranges have length at most `W` -/
def maxEvals (n m W : Nat) : Nat :=
  n * (4 * (W + 1) + 2 + searchEvals W) + m * (4 * (W + 1) * searchEvals W + 2 + searchEvals W ^ 2)

/-- The evaluations of `Solve`, and where its flow steps come from. -/
theorem solveC_count {n : Nat} {node : List (MuLimit D)} {es : List (OmegaLimit D)} {W : Nat} {w : Work} {r : Option D}
    (hn : ∀ i (h : i < node.length), 1 ≤ i → node[i].u - node[i].l ≤ W)
    (hm : ∀ e ∈ es, e.u - e.l ≤ W ∧ ∀ mi mj, node[e.i]? = some mi → node[e.j]? = some mj → e.u - (mi.l - mj.u) ≤ W)
    (h : solveC imax fuel n node es = .ok (w, r)) : w.evals ≤ maxEvals n es.length W ∧
      (w.flow = 0 ∨ ∃ s1 s2 x, nodes imax fuel node n 1 ⟨[], [], 0⟩ = .ok (some s1) ∧ pairs imax fuel node es s1 = .ok (some s2) ∧
        CostScaling.minCostC imax fuel (n + 1) s2.edge = .ok (w.flow, x)) := by
  have hmax : n * (4 * (W + 1) + 2) + n * searchEvals W + (es.length * (4 * (W + 1) * searchEvals W + 2) + es.length * searchEvals W ^ 2) =
      maxEvals n es.length W := by
    unfold maxEvals; ring
  unfold solveC at h
  obtain ⟨⟨k1, o1⟩, h1, h⟩ := bind_eq_ok.1 h
  obtain ⟨g1, p1⟩ := nodesC_count hn _ _ _ le_rfl h1
  have q1 : nodes imax fuel node n 1 ⟨[], [], 0⟩ = _ := (nodesC_er imax fuel node n 1 (⟨[], [], 0⟩ : StateC D)).symm
  rw [h1] at q1
  cases o1 with
  | none =>
    cases h
    exact ⟨by dsimp only; omega, Or.inl rfl⟩
  | some s1 =>
    obtain ⟨⟨k2, o2⟩, h2, h⟩ := bind_eq_ok.1 h
    obtain ⟨g2, p2⟩ := pairsC_count _ _ hm h2
    have q2 : pairs imax fuel node es s1.plain = _ := (pairsC_er imax fuel node es s1).symm
    rw [h2] at q2
    cases o2 with
    | none =>
      cases h
      exact ⟨by dsimp only; omega, Or.inl rfl⟩
    | some s2 =>
      obtain ⟨n1, hn1, h⟩ := bind_eq_ok.1 h
      obtain ⟨⟨c, b, res⟩, h3, h⟩ := bind_eq_ok.1 h
      obtain ⟨⟨k3, res'⟩, h4, h⟩ := bind_eq_ok.1 h
      obtain ⟨ps, a1, a2, a3⟩ := p1 s1 rfl
      obtain ⟨qs, b1, b2, b3⟩ := p2 s2 rfl
      have hn1 := ck_val hn1
      rw [show n1.toNat = n + 1 by omega] at h3
      have g3 : k3 ≤ n * searchEvals W + es.length * searchEvals W ^ 2 := by
        rw [b1, a1, List.nil_append] at h4
        have hq : ∀ (res : D) {k : Nat} {y : D}, addMinimaC imax fuel qs res = .ok (k, y) → k ≤ es.length * searchEvals W ^ 2 := by
          intro res k y h
          have h := addMinimaC_count (imax := imax) (fuel := fuel) ([] : List (FnC D × Int × Int)) 0
            (fun res k y h => by cases h; exact le_rfl) qs b3 res (by rw [List.append_nil]; exact h)
          rw [b2] at h
          rw [pow_two]
          omega
        have := addMinimaC_count qs _ hq ps a3 _ h4
        rw [a2, Nat.mul_one] at this
        exact this
      have hw : w = ⟨k1 + k2 + k3, c⟩ := by
        dsimp only at h
        split at h <;> cases h <;> rfl
      subst hw
      exact ⟨by dsimp only; omega, Or.inr ⟨_, _, _, q1, q2, h3⟩⟩

end SimpleSolver
end AHO
