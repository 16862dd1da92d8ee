import Verif.Proof.ExactCS
/-!
# `CostScaling::MinCost` in floating-point arithmetic
-/

namespace AHO.CS
open CostScaling Format
set_option linter.unusedSectionVars false

variable {f : Format} {net : Net} {Uc Up : AddSubgroup ℚ} {c0 : Nat → ℚ} {E0 J : Nat} {Bc t : ℚ}

/-- What is needed for all phases to be exact. -/
structure ScB (f : Format) (net : Net) (Uc Up : AddSubgroup ℚ) (c0 : Nat → ℚ) (E0 J : Nat) (Bc : ℚ) : Prop where
  c0U : ∀ e, e < net.E → c0 e ∈ Uc
  c0n : ∀ e, e < net.E → 0 ≤ c0 e
  exC : ∀ x ∈ Uc, |x| ≤ ∑ e ∈ Finset.range net.E, (c0 e + c0 (e ^^^ 1)) → Exact f x
  cb : ∀ e, e < net.E → |(net.cst e : ℚ)| ≤ Bc
  Bc0 : 0 ≤ Bc
  pos : 0 < E0
  hJ : E0 * net.N < 2 ^ J
  hU : ∀ i, i ≤ J → (E0 : ℚ) / 2 ^ i ∈ Up
  one : (1 : ℚ) ∈ Up
  exP : ∀ x ∈ Up, |x| ≤ Bc + 2 * (6 * net.N + 1) * E0 + 3 → Exact f x

/-- Between the phases: bounds of the numbers. -/
structure WSc (net : Net) (Uc Up : AddSubgroup ℚ) (c0 : Nat → ℚ) (E0 : Nat) (t : ℚ) (j : Nat) (s : CostScaling ℚ) : Prop extends Static net s where
  eps : s.epsilon * 2 ^ j = E0
  tc : s.total_cost = t
  nonneg : ∀ e, e < net.E → 0 ≤ cap s e
  anti : ∀ e, e < net.E → cap s (e ^^^ 1) - c0 (e ^^^ 1) = -(cap s e - c0 e)
  capU : ∀ e, e < net.E → cap s e ∈ Uc
  potU : ∀ v, v < net.N → s.p.get v ∈ Up
  pot0 : ∀ v, v < net.N → 0 ≤ s.p.get v
  potle : ∀ v, v < net.N → s.p.get v ≤ (6 * net.N + 1) * (E0 - s.epsilon)

theorem scale_sim (ok : net.OK) (b : ScB f net Uc Up c0 E0 J Bc) (fuel : Nat) : ∀ (k j : Nat) (s : CostScaling ℚ), j ≤ J → WSc net Uc Up c0 E0 t j s →
    Sim (scale fuel k s) (scale fuel k (csE f s)) (fun r => (csE f r.1, r.2)) (fun r => r.2 = true → ∃ i, WSc net Uc Up c0 E0 t i r.1) := by
  have two : ∀ j : Nat, (0 : ℚ) < 2 ^ j := fun j => pow_pos (by norm_num) _
  have hE0 : (0 : ℚ) < E0 := by exact_mod_cast b.pos
  intro k
  induction k with
  | zero => intro j s _ _; exact .error
  | succ k ih =>
    intro j s hj W
    have heps : s.epsilon = E0 / 2 ^ j := by rw [eq_div_iff (two j).ne']; exact W.eps
    have hep : 0 < s.epsilon := by rw [heps]; exact div_pos hE0 (two j)
    have hle : s.epsilon ≤ E0 := by
      rw [heps]; exact div_le_self hE0.le (one_le_pow₀ (by norm_num))
    have hN0 : (0 : ℚ) ≤ net.N := Nat.cast_nonneg _
    have hNE : s.epsilon * net.N ≤ net.N * E0 := by rw [mul_comm]; exact mul_le_mul_of_nonneg_left hle hN0
    have hNE0 : (0 : ℚ) ≤ net.N * E0 := mul_nonneg hN0 hE0.le
    have hE1 : (1 : ℚ) ≤ E0 := by exact_mod_cast b.pos
    have hNE1 : (net.N : ℚ) ≤ net.N * E0 := le_mul_of_one_le_right hN0 hE1
    have b0 := b.Bc0
    have intU : ∀ k : Int, (k : ℚ) ∈ Up := fun k => by
      have := Up.zsmul_mem b.one k
      rwa [zsmul_eq_mul, mul_one] at this
    have xN : Exact f ((s.N : Int) : ℚ) := b.exP _ (intU _) (by
      rw [W.N, abs_of_nonneg (by positivity)]; push_cast; linarith)
    have hEU : s.epsilon ∈ Up := by rw [heps]; exact b.hU j hj
    have y : Exact f (s.epsilon * ((s.N : Int) : ℚ)) := by
      refine b.exP _ ?_ ?_
      · rw [mul_comm, Int.cast_natCast, ← nsmul_eq_mul]; exact Up.nsmul_mem hEU _
      · rw [W.N, Int.cast_natCast, abs_of_nonneg (mul_nonneg hep.le hN0)]
        linarith
    unfold scale
    refine .ite ?_ (fun hgo => ?_) fun _ => .ok rfl fun _ => ⟨j, W⟩
    · show (1 : Flt f) ≤ Flt.ofRat f s.epsilon * ((s.N : Int) : Flt f) ↔ _
      rw [xN.int, y.mul]
      exact Flt.le_ofRat
    · have hjJ : j < J := by
        by_contra hc
        have h1 := Nat.pow_le_pow_right (show 0 < 2 by norm_num) (not_lt.1 hc)
        have h2 := b.hJ
        have h3 : ((E0 * net.N : Nat) : ℚ) < ((2 ^ j : Nat) : ℚ) := by exact_mod_cast lt_of_lt_of_le h2 h1
        rw [heps, W.N, Int.cast_natCast, div_mul_eq_mul_div, le_div_iff₀ (two j), one_mul] at hgo
        push_cast at h3
        linarith
      have hhU : s.epsilon / 2 ∈ Up := by
        have := b.hU (j + 1) hjJ
        rw [heps, div_div, ← pow_succ]; exact this
      have hb : Bnd f net Uc Up (cap s) s.p.get (s.epsilon / 2) := by
        have hq : ∀ v, v < net.N → |s.p.get v| + (6 * net.N + 1) * (s.epsilon / 2) ≤ (6 * net.N + 1) * E0 := by
          intro v hv
          rw [abs_of_nonneg (W.pot0 v hv)]
          have h1 := W.potle v hv
          have h2 : 0 ≤ (6 * (net.N : ℚ) + 1) * (s.epsilon / 2) := mul_nonneg (by positivity) (by linarith)
          have h3 : (6 * (net.N : ℚ) + 1) * (E0 - s.epsilon) = (6 * net.N + 1) * E0 - 2 * ((6 * net.N + 1) * (s.epsilon / 2)) := by ring
          linarith
        refine ⟨W.capU, W.nonneg, fun x hx hb => b.exC x hx (hb.trans (le_of_eq ?_)), by linarith, hhU, b.one, W.potU, ?_, ?_, ?_⟩
        · refine Finset.sum_congr rfl fun e he => ?_
          have := W.anti e (Finset.mem_range.1 he)
          linarith
        · intro x hx u v e hu hv he hb
          refine b.exP x hx (hb.trans ?_)
          have h1 := hq u hu
          have h2 := hq v hv
          have h3 := b.cb e he
          linarith
        · intro x hx v hv hb
          refine b.exP x hx (hb.trans ((hq v hv).trans ?_))
          have : 0 ≤ (6 * (net.N : ℚ) + 1) * E0 := by positivity
          linarith
        · intro x hx hb
          refine b.exP x hx ?_
          have : 0 ≤ (6 * (net.N : ℚ) + 1) * E0 := by positivity
          rcases hb with hb | hb
          · linarith
          · linarith
      refine (refine_sim ok hb fuel (t := t) W.toStatic (by ring) W.tc (fun _ _ => rfl) fun _ _ => rfl).bind fun r _ hr => ?_
      obtain ⟨s1, ret⟩ := r
      obtain ⟨r', hr', W1⟩ := hr
      dsimp only at hr' ⊢
      subst hr'
      refine .ite Iff.rfl (fun _ => ?_) fun _ => .ok rfl fun hc => nomatch hc
      have x2 : Exact f ((2 : Int) : ℚ) := b.exP _ (intU 2) (by
        have : 0 ≤ 2 * (6 * (net.N : ℚ) + 1) * E0 := by positivity
        norm_num; linarith)
      have e1 : r'.epsilon = s.epsilon := by rw [W1.eps]; ring
      have y2 : Exact f (r'.epsilon / ((2 : Int) : ℚ)) := by
        refine b.exP _ (by rw [e1]; exact_mod_cast hhU) ?_
        rw [e1]
        push_cast
        rw [abs_of_pos (by linarith)]
        have : 0 ≤ (6 * (net.N : ℚ)) * E0 := by positivity
        linarith
      have e3 : (csE f r'.toCostScaling).epsilon / ((2 : Int) : Flt f) = Flt.ofRat f (r'.epsilon / ((2 : Int) : ℚ)) := by
        show Flt.ofRat f r'.epsilon / ((2 : Int) : Flt f) = _
        rw [x2.int, y2.div (by norm_num)]
      have e4 : ({ csE f r'.toCostScaling with epsilon := (csE f r'.toCostScaling).epsilon / ((2 : Int) : Flt f) } : CostScaling (Flt f)) =
          csE f { r'.toCostScaling with epsilon := r'.epsilon / ((2 : Int) : ℚ) } := by
        rw [e3]; rfl
      dsimp only at e4
      rw [e4]
      obtain ⟨kk, hkk⟩ := W1.pot
      have he2 : r'.epsilon / ((2 : Int) : ℚ) = s.epsilon / 2 := by rw [e1]; push_cast; rfl
      refine ih (j + 1) _ hjJ ⟨⟨W1.N, W1.psz, W1.hsz, W1.head, W1.esz, W1.edge⟩, ?_, W1.tc, W1.nonneg, fun e he => ?_, W1.capU, fun v hv => ?_, fun v hv => ?_, fun v hv => ?_⟩
      · show r'.epsilon / ((2 : Int) : ℚ) * 2 ^ (j + 1) = _
        rw [he2, ← W.eps, pow_succ]; ring
      · have h1 := W1.anti e he
        have h2 := W.anti e he
        show cap r'.toCostScaling _ - _ = -(cap r'.toCostScaling e - _)
        linarith
      · exact W1.potU ok hb hv
      · show 0 ≤ r'.p.get v
        rw [(hkk v hv).1]
        exact add_nonneg (W.pot0 v hv) (mul_nonneg (Nat.cast_nonneg _) (by linarith))
      · show r'.p.get v ≤ (6 * net.N + 1) * (E0 - r'.epsilon / ((2 : Int) : ℚ))
        rw [(hkk v hv).1, he2]
        have h1 := W.potle v hv
        have h2 : (kk v : ℚ) * (s.epsilon / 2) ≤ (6 * net.N + 1) * (s.epsilon / 2) :=
          mul_le_mul_of_nonneg_right (by exact_mod_cast (hkk v hv).2.2) (by linarith)
        have h3 : (6 * (net.N : ℚ) + 1) * (E0 - s.epsilon / 2) = (6 * net.N + 1) * (E0 - s.epsilon) + (6 * net.N + 1) * (s.epsilon / 2) := by ring
        linarith

/-- an arc with a floating-point capacity -/
def inE (f : Format) (a : InputEdge ℚ) : InputEdge (Flt f) := ⟨a.u, a.v, a.cost, Flt.ofRat f a.capacity⟩

theorem vec_map_push {α β : Type} (g : α → β) (v : Vec α) (x : α) : (v.map g).push (g x) = (v.push x).map g := by
  unfold Vec.push Vec.map
  congr 1
  funext k
  dsimp only
  split <;> rfl

theorem vec_map_resize {α β : Type} (g : α → β) (v : Vec α) (n : Nat) (x : α) : (v.map g).resize n (g x) = (v.resize n x).map g := by
  unfold Vec.resize Vec.map
  congr 1
  funext k
  dsimp only
  split <;> rfl

theorem addEdge_sim (imax : Int) (u v : Nat) (c : Int) (x : ℚ) (s : CostScaling ℚ) :
    Sim (addEdge imax u v c x s) (addEdge imax u v c (Flt.ofRat f x) (csE f s)) (csE f) (fun s' => s'.total_cost = s.total_cost) := by
  unfold addEdge
  refine .bind_same fun h _ => .bind_same fun len _ => .bind_same fun head _ => .ok ?_ rfl
  unfold csE
  dsimp only
  congr 1
  exact vec_map_push (arcE f) s.edge ⟨h, v, c, x⟩

theorem initEdge_sim (imax : Int) {s : CostScaling ℚ} {e : InputEdge ℚ} (x1 : Exact f (e.cost : ℚ)) (x2 : Exact f (e.capacity * (e.cost : ℚ)))
    (x3 : Exact f (s.total_cost + e.capacity * (e.cost : ℚ))) :
    Sim (initEdge imax s e) (initEdge imax (csE f s) (inE f e)) (csE f) (fun s' => s'.total_cost = s.total_cost + e.capacity * (e.cost : ℚ)) := by
  unfold initEdge
  have e4 : ({ csE f s with epsilon := dmax (csE f s).epsilon ((inE f e).cost : Flt f), total_cost := (csE f s).total_cost + (inE f e).capacity * ((inE f e).cost : Flt f) } :
      CostScaling (Flt f)) = csE f { s with epsilon := dmax s.epsilon (e.cost : ℚ), total_cost := s.total_cost + e.capacity * (e.cost : ℚ) } := by
    have h1 : ((inE f e).cost : Flt f) = Flt.ofRat f (e.cost : ℚ) := x1.int
    rw [h1]
    unfold csE inE
    dsimp only
    rw [Flt.dmax_ofRat, x2.mul, x3.add]
  dsimp only at e4 ⊢
  rw [e4]
  refine (addEdge_sim imax e.u e.v e.cost e.capacity _).bind fun s1 _ h1 => .bind_same fun c _ => ?_
  exact (addEdge_sim imax e.v e.u c 0 s1).mono fun s2 h2 => by rw [h2, h1]

theorem init_sim {arcs : List (InputEdge ℚ)} {n : Nat} (imax : Int) {B : ℚ} (hB : (arcs.map fun a => |a.capacity * (a.cost : ℚ)|).sum ≤ B)
    (hU : ∀ a ∈ arcs, a.capacity ∈ Uc) (hx : ∀ x ∈ Uc, |x| ≤ B → Exact f x) (hc : ∀ a ∈ arcs, Exact f (a.cost : ℚ)) :
    Sim (init imax n arcs) (init imax n (arcs.map (inE f))) (csE f) (fun s => s.total_cost ∈ Uc) := by
  have key : ∀ (L : List (InputEdge ℚ)) (s : CostScaling ℚ), (∀ a ∈ L, a ∈ arcs) → |s.total_cost| + (L.map fun a => |a.capacity * (a.cost : ℚ)|).sum ≤ B →
      s.total_cost ∈ Uc → Sim (L.foldlM (initEdge imax) s) ((L.map (inE f)).foldlM (initEdge imax) (csE f s)) (csE f) (fun s => s.total_cost ∈ Uc) := by
    intro L
    induction L with
    | nil => intro s _ _ hs; exact .ok rfl hs
    | cons a L ih =>
      intro s hL hb hs
      rw [List.map_cons, List.foldlM_cons, List.foldlM_cons]
      have ha := hL a (by simp)
      have hL0 : 0 ≤ (L.map fun a => |a.capacity * (a.cost : ℚ)|).sum := List.sum_nonneg fun x hx => by
        obtain ⟨y, -, rfl⟩ := List.mem_map.1 hx
        exact abs_nonneg _
      rw [List.map_cons, List.sum_cons] at hb
      have m1 : a.capacity * (a.cost : ℚ) ∈ Uc := by
        rw [mul_comm, ← zsmul_eq_mul]; exact Uc.zsmul_mem (hU a ha) _
      have h1 := abs_nonneg s.total_cost
      have h2 := abs_add_le s.total_cost (a.capacity * (a.cost : ℚ))
      refine (initEdge_sim imax (hc a ha) (hx _ m1 (by linarith)) (hx _ (Uc.add_mem hs m1) (by linarith))).bind fun s1 _ e1 => ?_
      refine ih s1 (fun x hx => hL x (by simp [hx])) ?_ ?_
      · rw [e1]; linarith
      · rw [e1]; exact Uc.add_mem hs m1
  unfold init
  have h0 : ({ N := n, epsilon := 1, p := Vec.replicate 0 0, head := Vec.replicate n none, edge := Vec.replicate 0 ⟨none, 0, 0, 0⟩, len := -1, total_cost := 0 } : CostScaling (Flt f)) = csE f { N := n, epsilon := 1, p := Vec.replicate 0 0, head := Vec.replicate n none, edge := Vec.replicate 0 ⟨none, 0, 0, 0⟩, len := -1, total_cost := 0 } := by
    rfl
  rw [h0]
  refine (key arcs _ (fun _ h => h) (by simpa using hB) Uc.zero_mem).bind fun s _ hs => .ok ?_ hs
  unfold csE
  dsimp only
  congr 1
  exact vec_map_resize (Flt.ofRat f) s.p n 0

/-- The sum at the end of `MinCost`. -/
theorem foldl_sim {B : ℚ} (hx : ∀ x ∈ Uc, |x| ≤ B → Exact f x) (L : List (CArc ℚ)) (hU : ∀ a ∈ L, a.capacity ∈ Uc)
    (hc : ∀ a ∈ L, Exact f (a.cost : ℚ)) : ∀ t ∈ Uc, |t| + (L.map fun a => |a.capacity * (a.cost : ℚ)|).sum ≤ B →
      (L.map (arcE f)).foldl (fun t e => t - e.capacity * (e.cost : Flt f)) (Flt.ofRat f t) =
        Flt.ofRat f (L.foldl (fun t e => t - e.capacity * (e.cost : ℚ)) t) ∧
      L.foldl (fun t e => t - e.capacity * (e.cost : ℚ)) t ∈ Uc ∧ |L.foldl (fun t e => t - e.capacity * (e.cost : ℚ)) t| ≤ B := by
  induction L with
  | nil => intro t ht hb; exact ⟨rfl, ht, by simpa using hb⟩
  | cons a L ih =>
    intro t ht hb
    rw [List.map_cons, List.sum_cons] at hb
    have hL0 : 0 ≤ (L.map fun a => |a.capacity * (a.cost : ℚ)|).sum := List.sum_nonneg fun x hx => by
      obtain ⟨y, -, rfl⟩ := List.mem_map.1 hx
      exact abs_nonneg _
    have m1 : a.capacity * (a.cost : ℚ) ∈ Uc := by
      rw [mul_comm, ← zsmul_eq_mul]; exact Uc.zsmul_mem (hU a (by simp)) _
    have h1 := abs_nonneg t
    have h2 := abs_sub t (a.capacity * (a.cost : ℚ))
    have e1 : Flt.ofRat f t - (arcE f a).capacity * ((arcE f a).cost : Flt f) = Flt.ofRat f (t - a.capacity * (a.cost : ℚ)) := by
      have h3 : ((arcE f a).cost : Flt f) = Flt.ofRat f (a.cost : ℚ) := (hc a (by simp)).int
      rw [h3]
      unfold arcE
      dsimp only
      rw [(hx _ m1 (by linarith)).mul, (hx _ (Uc.sub_mem ht m1) (by linarith)).sub]
    rw [List.map_cons, List.foldl_cons, List.foldl_cons, e1]
    exact ih (fun x hx => hU x (by simp [hx])) (fun x hx => hc x (by simp [hx])) _ (Uc.sub_mem ht m1) (by linarith)

/-- What is needed for `MinCost` to be exact. -/
structure MinB (f : Format) (n : Nat) (arcs : List (InputEdge ℚ)) (Uc : AddSubgroup ℚ) (Rc J : Nat) : Prop where
  capU : ∀ a ∈ arcs, a.capacity ∈ Uc
  exC : ∀ x, 2 * x ∈ Uc → |x| ≤ 2 * (arcs.map fun a => a.capacity * (|(a.cost : ℚ)| + 1)).sum → Exact f x
  pos : 1 ≤ Rc
  cb : ∀ a ∈ arcs, |a.cost| ≤ Rc
  hJ : Rc * n < 2 ^ J
  exP : ∀ x ∈ AddSubgroup.zmultiples (pow2 (-J)), |x| ≤ (12 * n + 3) * Rc + 3 → Exact f x

theorem eps0_le {arcs : List (InputEdge ℚ)} {R : Int} (h1 : 1 ≤ R) (h : ∀ a ∈ arcs, a.cost ≤ R) : eps0 arcs ≤ R := by
  have key : ∀ (L : List (InputEdge ℚ)) (a : Int), a ≤ R → (∀ x ∈ L, x.cost ≤ R) → L.foldl (fun a e => max a e.cost) a ≤ R := by
    intro L
    induction L with
    | nil => intro a ha _; exact ha
    | cons x L ih =>
      intro a ha hL
      exact ih _ (max_le ha (hL x (by simp))) fun y hy => hL y (by simp [hy])
  exact key arcs 1 h1 h

theorem range_sum {M : Type} [AddCommMonoid M] (m : Nat) (g : Nat → M) : ((List.range m).map g).sum = ∑ e ∈ Finset.range m, g e := by
  induction m with
  | zero => simp
  | succ m ih => rw [List.range_succ, List.map_append, List.sum_append, ih, Finset.sum_range_succ]; simp

theorem abs_sum_map_le (L : List (InputEdge ℚ)) (g : InputEdge ℚ → ℚ) : |(L.map g).sum| ≤ (L.map fun a => |g a|).sum := by
  induction L with
  | nil => simp
  | cons a L ih =>
    simp only [List.map_cons, List.sum_cons]
    exact (abs_add_le _ _).trans (by linarith)

theorem minCost_sim {arcs : List (InputEdge ℚ)} {n Rc J : Nat} {imax : Int} {fuel : Nat} (b : MinB f n arcs Uc Rc J) (hu : ∀ a ∈ arcs, a.u < n)
    (hv : ∀ a ∈ arcs, a.v < n) (hne : ∀ a ∈ arcs, a.u ≠ a.v) (hcap : ∀ a ∈ arcs, 0 ≤ a.capacity)
    (hi : 2 * (arcs.length : Int) - 1 ≤ imax) (hR : (Rc : Int) ≤ imax) :
    Sim (CostScaling.minCost imax fuel n arcs) (CostScaling.minCost imax fuel n (arcs.map (inE f))) (fun r => (r.1, Flt.ofRat f r.2))
      (fun r => 2 * r.2 ∈ Uc ∧ |r.2| ≤ (arcs.map fun a => a.capacity * (|(a.cost : ℚ)| + 1)).sum) := by
  have ok := netOf_ok hu hv hne
  have hE : (netOf arcs n).E = 2 * arcs.length := rfl
  have hN : (netOf arcs n).N = n := rfl
  obtain ⟨s0', e1, S0, p0, c0, z0, t0⟩ := init_spec (imax := imax) hu hv hi (fun a ha => by have := b.cb a ha; rw [abs_le] at this; omega)
    (fun a ha => by have := b.cb a ha; rw [abs_le] at this; omega)
  have h1 : 1 ≤ eps0 arcs := foldl_max_ge _ _
  have h1R : eps0 arcs ≤ Rc := eps0_le (by have := b.pos; omega) fun a ha => by have := b.cb a ha; rw [abs_le] at this; omega
  have hRc : (1 : ℚ) ≤ Rc := by exact_mod_cast b.pos
  have hn0 : (0 : ℚ) ≤ n := Nat.cast_nonneg _
  have hnR : (0 : ℚ) ≤ n * Rc := by positivity
  have up : ∀ i, i ≤ J → ((1 : ℚ) / 2 ^ i) ∈ AddSubgroup.zmultiples (pow2 (-J)) := by
    intro i hi
    refine AddSubgroup.mem_zmultiples_iff.2 ⟨2 ^ (J - i), ?_⟩
    rw [zsmul_eq_mul]
    unfold pow2
    push_cast
    rw [zpow_neg, zpow_natCast, ← div_eq_mul_inv, div_eq_div_iff (by positivity) (by positivity), one_mul, ← pow_add]
    congr 1
    omega
  have one : (1 : ℚ) ∈ AddSubgroup.zmultiples (pow2 (-J)) := by simpa using up 0 (Nat.zero_le _)
  have intU : ∀ k : Int, (k : ℚ) ∈ AddSubgroup.zmultiples (pow2 (-J)) := fun k => by
    have := (AddSubgroup.zmultiples (pow2 (-J))).zsmul_mem one k
    rwa [zsmul_eq_mul, mul_one] at this
  have xc : ∀ k : Int, |k| ≤ Rc → Exact f (k : ℚ) := fun k hk => b.exP _ (intU k) (by
    have : |(k : ℚ)| ≤ Rc := by exact_mod_cast hk
    linarith)
  have x2 : Exact f ((2 : Int) : ℚ) := b.exP _ (intU 2) (by norm_num; linarith)
  set B := (arcs.map fun a => |a.capacity * (a.cost : ℚ)|).sum with hB
  set W := (arcs.map fun a => a.capacity * (|(a.cost : ℚ)| + 1)).sum with hW
  have hBW : B ≤ W := List.sum_le_sum fun a ha => by
    rw [abs_mul, abs_of_nonneg (hcap a ha)]
    have := hcap a ha
    linarith
  have hB0 : 0 ≤ B := List.sum_nonneg fun x hx => by
    obtain ⟨y, -, rfl⟩ := List.mem_map.1 hx
    exact abs_nonneg _
  have dbl : ∀ x ∈ Uc, 2 * x ∈ Uc := fun x hx => by rw [two_mul]; exact Uc.add_mem hx hx
  unfold CostScaling.minCost
  refine (init_sim imax (B := 2 * B) (by linarith) b.capU (fun x hx hb => b.exC x (dbl x hx) (by linarith)) (fun a ha => xc _ (b.cb a ha))).bind fun s0 e0 ht => ?_
  rw [e1] at e0
  cases e0
  set E0 := (eps0 arcs).toNat with hE0
  have hE0R : (E0 : ℚ) ≤ Rc := by
    have : E0 ≤ Rc := by omega
    exact_mod_cast this
  have hE0' : ((E0 : Nat) : ℚ) = ((eps0 arcs : Int) : ℚ) := by
    rw [hE0, ← Int.cast_natCast, Int.toNat_of_nonneg (by omega)]
  have capn : ∀ e, e < (netOf arcs n).E → 0 ≤ capOf arcs e := fun e he => by
    obtain ⟨k, rfl | rfl⟩ := two_cases e
    · rw [capOf_even]; exact hcap _ (arcOf_mem (by omega))
    · rw [capOf_odd]
  have capu : ∀ e, e < (netOf arcs n).E → capOf arcs e ∈ Uc := fun e he => by
    obtain ⟨k, rfl | rfl⟩ := two_cases e
    · rw [capOf_even]; exact b.capU _ (arcOf_mem (by omega))
    · rw [capOf_odd]; exact Uc.zero_mem
  have cstb : ∀ e, e < (netOf arcs n).E → |(netOf arcs n).cst e| ≤ Rc := fun e he => by
    show |cstOf arcs e| ≤ Rc
    obtain ⟨k, rfl | rfl⟩ := two_cases e
    · rw [cstOf_even]; exact b.cb _ (arcOf_mem (by omega))
    · rw [cstOf_odd, abs_neg]; exact b.cb _ (arcOf_mem (by omega))
  have hsc : ScB f (netOf arcs n) Uc (AddSubgroup.zmultiples (pow2 (-J))) (capOf arcs) E0 J Rc := by
    refine ⟨capu, capn, fun x hx hb => b.exC x (dbl x hx) (hb.trans ?_), fun e he => by exact_mod_cast cstb e he, by linarith, by omega, ?_, fun i hi => ?_, one, ?_⟩
    · have e1 : ∑ e ∈ Finset.range (2 * arcs.length), (capOf arcs e + capOf arcs (e ^^^ 1)) = 2 * (arcs.map fun a => a.capacity).sum := by
        rw [Flow.sum_double, sum_map_range arcs _ ⟨0, 0, 0, 0⟩, Finset.mul_sum]
        refine Finset.sum_congr rfl fun k _ => ?_
        rw [x_even, x_odd, capOf_even, capOf_odd]
        show _ = 2 * (arcOf arcs k).capacity
        ring
      rw [hE, e1]
      have : (arcs.map fun a => a.capacity).sum ≤ W := List.sum_le_sum fun a ha => by
        have h2 := mul_nonneg (hcap a ha) (abs_nonneg (a.cost : ℚ))
        linarith
      linarith
    · have : E0 * n ≤ Rc * n := Nat.mul_le_mul_right _ (by omega)
      exact lt_of_le_of_lt this b.hJ
    · have := (AddSubgroup.zmultiples (pow2 (-J))).nsmul_mem (up i hi) E0
      rwa [nsmul_eq_mul, mul_one_div] at this
    · intro x hx hb
      refine b.exP x hx (hb.trans ?_)
      rw [hN]
      have : 2 * (6 * (n : ℚ) + 1) * E0 ≤ 2 * (6 * n + 1) * Rc := mul_le_mul_of_nonneg_left hE0R (by positivity)
      linarith
  have hws : WSc (netOf arcs n) Uc (AddSubgroup.zmultiples (pow2 (-J))) (capOf arcs) E0 s0'.total_cost 0 s0' := by
    refine ⟨S0, by rw [p0, hE0']; simp, rfl, fun e he => by rw [c0 e he]; exact capn e he, fun e he => ?_, fun e he => by rw [c0 e he]; exact capu e he,
      fun v hv => by rw [z0 v hv]; exact AddSubgroup.zero_mem _, fun v hv => by rw [z0 v hv], fun v hv => ?_⟩
    · rw [c0 e he, c0 _ (ok.x_lt e he)]; simp
    · rw [z0 v hv, p0, hE0', sub_self, mul_zero]
  refine (scale_sim ok hsc fuel fuel 0 s0' (Nat.zero_le _) hws).bind fun r _ hr => ?_
  obtain ⟨s, ret⟩ := r
  dsimp only at hr ⊢
  cases ret with
  | false => exact .ok rfl ⟨by simp [Uc.zero_mem], by simp only [abs_zero]; linarith⟩
  | true =>
    obtain ⟨i, I⟩ := hr rfl
    simp only [if_true]
    have hlist : (csE f s).edge.toList = s.edge.toList.map (arcE f) := by
      unfold Vec.toList csE
      rw [List.map_map]
      rfl
    have hmem : ∀ a ∈ s.edge.toList, ∃ e, e < (netOf arcs n).E ∧ a = s.edge.get e := by
      intro a ha
      unfold Vec.toList at ha
      obtain ⟨e, he, rfl⟩ := List.mem_map.1 ha
      exact ⟨e, by rw [← I.esz]; exact List.mem_range.1 he, rfl⟩
    have hsum : (s.edge.toList.map fun a => |a.capacity * (a.cost : ℚ)|).sum = B := by
      unfold Vec.toList
      rw [List.map_map, range_sum, I.esz, hE, Flow.sum_double, hB, sum_map_range arcs _ ⟨0, 0, 0, 0⟩]
      refine Finset.sum_congr rfl fun k hk => ?_
      have hk := Finset.mem_range.1 hk
      have g1 := I.edge (2 * k) (by rw [hE]; omega)
      have g2 := I.edge (2 * k + 1) (by rw [hE]; omega)
      have n1 := I.nonneg (2 * k) (by rw [hE]; omega)
      have n2 := I.nonneg (2 * k + 1) (by rw [hE]; omega)
      have a1 := I.anti (2 * k) (by rw [hE]; omega)
      rw [x_even, capOf_odd, capOf_even] at a1
      show |(s.edge.get (2 * k)).capacity * ((s.edge.get (2 * k)).cost : ℚ)| + |(s.edge.get (2 * k + 1)).capacity * ((s.edge.get (2 * k + 1)).cost : ℚ)| =
        |(arcOf arcs k).capacity * ((arcOf arcs k).cost : ℚ)|
      rw [g1, g2]
      show |cap s (2 * k) * ((cstOf arcs (2 * k) : Int) : ℚ)| + |cap s (2 * k + 1) * ((cstOf arcs (2 * k + 1) : Int) : ℚ)| = _
      rw [cstOf_even, cstOf_odd, abs_mul, abs_mul, abs_mul, abs_of_nonneg n1, abs_of_nonneg n2, abs_of_nonneg (hcap _ (arcOf_mem hk))]
      push_cast
      rw [abs_neg, ← add_mul]
      congr 1
      linarith
    have htb : |s0'.total_cost| ≤ B := by
      rw [t0, hB]
      exact abs_sum_map_le _ _
    obtain ⟨g1, g2, g3⟩ := foldl_sim (f := f) (Uc := Uc) (B := 2 * B) (fun x hx hb => b.exC x (dbl x hx) (by linarith)) s.edge.toList
      (fun a ha => by obtain ⟨e, he, rfl⟩ := hmem a ha; exact I.capU e he)
      (fun a ha => by
        obtain ⟨e, he, rfl⟩ := hmem a ha
        rw [I.edge e he]
        exact xc _ (cstb e he)) s.total_cost (by rw [I.tc]; exact ht) (by rw [hsum, I.tc]; linarith)
    set t := s.edge.toList.foldl (fun t e => t - e.capacity * (e.cost : ℚ)) s.total_cost with htdef
    have q1 : 2 * (-t / ((2 : Int) : ℚ)) ∈ Uc := by
      push_cast
      rw [mul_div_cancel₀ _ (by norm_num)]
      exact Uc.neg_mem g2
    have q2 : |(-t / ((2 : Int) : ℚ))| ≤ B := by
      push_cast
      rw [abs_div, abs_neg, abs_of_pos (by norm_num : (0 : ℚ) < 2)]
      linarith
    refine .ok ?_ ⟨q1, q2.trans hBW⟩
    rw [hlist]
    show (true, -(List.foldl _ (Flt.ofRat f s.total_cost) _) / ((2 : Int) : Flt f)) = _
    rw [g1]
    refine Prod.ext rfl ?_
    dsimp only
    rw [x2.int, Flt.neg_ofRat]
    exact Exact.div (by norm_num) (b.exC _ q1 (by linarith))

end AHO.CS
