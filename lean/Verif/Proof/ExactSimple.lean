import Verif.Proof.ExactMin
import Verif.Proof.SimpleSolve
/-!
# `SimpleSolver::Solve` in floating-point arithmetic
-/

namespace AHO
open Format Spec

theorem ck_eq {imax x y : Int} (h : ck imax x = .ok y) : y = x := by
  unfold ck at h
  split at h
  · cases h; rfl
  · cases h

/-- relation between optional values -/
def ORel {α β : Type} (R : α → β → Prop) : Option α → Option β → Prop
  | none, none => True
  | some a, some b => R a b
  | _, _ => False

theorem Flt.dmax_ofRat' {f : Format} {a b : ℚ} : dmax (Flt.ofRat f a) (Flt.ofRat f b) = Flt.ofRat f (dmax a b) := Flt.dmax_ofRat

namespace SimpleSolver
open CS (inE)
set_option linter.unusedSectionVars false

variable {f : Format} {U : AddSubgroup ℚ} {G C : ℚ} {imax : Int} {fuel : Nat}

/-- the values of the costs -/
def Val (U : AddSubgroup ℚ) (G : ℚ) (v : ℚ) : Prop := v ∈ U ∧ |v| ≤ G

theorem ternary_sim {V : ℚ → Prop} {φ : Fn ℚ} {φ' : Fn (Flt f)} (h : FnSim V φ φ') : ∀ (fuel : Nat) (l r : Int),
    Sim (ternary imax φ fuel l r) (ternary imax φ' fuel l r) (Flt.ofRat f) V := by
  intro fuel
  induction fuel with
  | zero => intro l r; exact .error
  | succ fuel ih =>
    intro l r
    unfold ternary
    refine .ite Iff.rfl (fun _ => ?_) fun _ => ?_
    · refine .bind_same fun d _ => .bind_same fun lm _ => .bind_same fun rm _ => (h lm).bind fun a _ _ => (h rm).bind fun b _ _ => ?_
      exact .ite Flt.le_ofRat (fun _ => .bind_same fun r' _ => ih _ _) fun _ => .bind_same fun l' _ => ih _ _
    · refine (h l).bind fun a _ ha => (h r).bind fun b _ hb => .ok Flt.dmin_ofRat ?_
      unfold dmin
      split
      · exact hb
      · exact ha

theorem suffixMin_sim {V : ℚ → Prop} {e : OmegaLimit ℚ} {e' : OmegaLimit (Flt f)} (h : OmSim V e e') :
    FnSim V (suffixMin imax fuel e) (suffixMin imax fuel e') := by
  intro x
  unfold suffixMin
  rw [h.l, h.u]
  exact ternary_sim h.fn _ _ _

/-- What is needed for everything to be exact. -/
structure ExB (f : Format) (U : AddSubgroup ℚ) (G C : ℚ) : Prop where
  one : (1 : ℚ) ∈ U
  G0 : 0 ≤ G
  ex : ∀ x, 2 * x ∈ U → |x| ≤ C → Exact f x
  C1 : 4 * G + 2 * 10 ^ 9 ≤ C

variable (b : ExB f U G C)
include b

theorem ExB.int (k : Int) : (k : ℚ) ∈ U := by
  have := U.zsmul_mem b.one k
  rwa [zsmul_eq_mul, mul_one] at this

theorem ExB.exU {x : ℚ} (hx : x ∈ U) (h : |x| ≤ C) : Exact f x := b.ex x (by rw [two_mul]; exact U.add_mem hx hx) h

theorem ExB.bigM : (bigM : Flt f) = Flt.ofRat f bigM := by
  have := b.C1
  have := b.G0
  refine (b.exU (b.int 1000000000) ?_).int
  rw [abs_of_nonneg (by norm_num)]
  norm_num at *
  linarith

theorem bij_sim {φ : Fn ℚ} {φ' : Fn (Flt f)} (h : FnSim (Val U G) φ φ') (l r x : Int) :
    Sim (bij imax φ l r x) (bij imax φ' l r x) (Flt.ofRat f) (Val U (2 * G + 10 ^ 9)) := by
  have h1 : (SimpleSolver.bigM : ℚ) ∈ U := b.int _
  have h2 : |(SimpleSolver.bigM : ℚ)| ≤ 2 * G + 10 ^ 9 := by
    have := b.G0
    unfold SimpleSolver.bigM
    rw [abs_of_nonneg (by norm_num)]
    norm_num
    linarith
  unfold bij
  refine .ite Iff.rfl (fun _ => .ok (by rw [b.bigM, Flt.neg_ofRat]) ⟨U.neg_mem h1, by rwa [abs_neg]⟩) fun _ => .ite Iff.rfl (fun _ => .ok b.bigM ⟨h1, h2⟩) fun _ => ?_
  refine .bind_same fun x1 _ => (h x1).bind fun a1 _ ha => (h x).bind fun a2 _ hb => ?_
  have m1 := U.sub_mem ha.1 hb.1
  have m2 : |a1 - a2| ≤ 2 * G := (abs_sub a1 a2).trans (by linarith [ha.2, hb.2])
  have := b.C1
  have := b.G0
  exact .ok ((b.exU m1 (by linarith)).sub) ⟨m1, by linarith⟩

/-- the sum of the capacities -/
def capSum (es : List (InputEdge ℚ)) : ℚ := (es.map fun a => a.capacity).sum

theorem splitAt_sim {φ : Fn ℚ} {φ' : Fn (Flt f)} (h : FnSim (Val U G) φ φ') (l r : Int) (u v : Nat) (j : Int) :
    Sim (splitAt imax φ l r u v j) (splitAt imax φ' l r u v j) (List.map (inE f)) (fun es => (∀ a ∈ es, a.capacity ∈ U) ∧
      ∃ lo up, bij imax φ l r (j - 1) = .ok lo ∧ bij imax φ l r j = .ok up ∧ capSum es = up - lo) := by
  unfold splitAt
  refine .bind_same fun j1 hj1 => (bij_sim b h l r j1).bind fun lo elo hlo => (bij_sim b h l r j).bind fun up eup hup => ?_
  have hj1 := ck_eq hj1
  subst hj1
  have m1 := U.sub_mem hup.1 hlo.1
  have m2 : |up - lo| ≤ C := (abs_sub up lo).trans (by linarith [hlo.2, hup.2, b.C1])
  have e1 : Flt.ofRat f up - Flt.ofRat f lo = Flt.ofRat f (up - lo) := (b.exU m1 m2).sub
  refine .ite Flt.le_ofRat (fun _ => .ok (by rw [e1]; rfl) ⟨?_, lo, up, elo, eup, ?_⟩) fun _ => .bind_same fun nj _ => ?_
  · intro a ha; rw [List.mem_singleton] at ha; subst ha; exact m1
  · simp [capSum]
  · refine .ite Flt.le_ofRat (fun _ => .ok (by rw [e1]; rfl) ⟨?_, lo, up, elo, eup, ?_⟩) fun _ => .ok (by rw [Flt.neg_ofRat]; rfl) ⟨?_, lo, up, elo, eup, ?_⟩
    · intro a ha; rw [List.mem_singleton] at ha; subst ha; exact m1
    · simp [capSum]
    · intro a ha
      rw [List.mem_cons, List.mem_singleton] at ha
      rcases ha with rfl | rfl
      · exact hup.1
      · exact U.neg_mem hlo.1
    · simp [capSum]; ring

theorem split_sim {φ : Fn ℚ} {φ' : Fn (Flt f)} (h : FnSim (Val U G) φ φ') {l r : Int} (hlr : l ≤ r) (u v : Nat) (edge : List (InputEdge ℚ))
    (hU : ∀ a ∈ edge, a.capacity ∈ U) :
    Sim (split imax fuel φ l r u v edge) (split imax fuel φ' l r u v (edge.map (inE f))) (List.map (inE f)) (fun es => (∀ a ∈ es, a.capacity ∈ U) ∧
      capSum es = capSum edge + 2 * 10 ^ 9) := by
  unfold split
  have hM : (SimpleSolver.bigM : ℚ) = 10 ^ 9 := by unfold SimpleSolver.bigM; norm_num
  refine (Sim.whileLoop (g := fun s : Int × List (InputEdge ℚ) => (s.1, s.2.map (inE f)))
    (fun s => l ≤ s.1 ∧ (∀ a ∈ s.2, a.capacity ∈ U) ∧ ∃ lo, bij imax φ l r (s.1 - 1) = .ok lo ∧ capSum s.2 = capSum edge + lo + SimpleSolver.bigM)
    (fun s _ => .ok (g := fun b => b) rfl trivial) (fun s hs _ => ?_) fuel (l, edge) ⟨le_rfl, hU, -SimpleSolver.bigM, ?_, by ring⟩).bind fun s _ hs => .ok rfl ?_
  · obtain ⟨h0, h1, lo, h2, h3⟩ := hs
    refine (splitAt_sim b h l r u v s.1).bind fun es _ hes => .bind_same fun j hj => ?_
    obtain ⟨g1, lo', up, g2, g3, g4⟩ := hes
    rw [h2] at g2
    cases g2
    have hj := ck_eq hj
    subst hj
    refine .ok ?_ ⟨by omega, fun a ha => ?_, up, ?_, ?_⟩
    · dsimp only; rw [List.map_append]
    · rcases List.mem_append.1 ha with ha | ha
      · exact h1 a ha
      · exact g1 a ha
    · rw [show s.1 + 1 - 1 = s.1 by ring]; exact g3
    · unfold capSum at *
      rw [List.map_append, List.sum_append, h3, g4]; ring
  · unfold bij; rw [if_pos (by dsimp only; omega)]
  · obtain ⟨⟨h0, h1, lo, h2, h3⟩, h4⟩ := hs
    have h4 : ¬ s.1 ≤ r := by
      intro hc
      rw [decide_eq_true hc] at h4
      cases h4
    refine ⟨h1, ?_⟩
    unfold bij at h2
    rw [if_neg (by omega), if_pos (by omega)] at h2
    cases h2
    rw [h3, hM]; ring

/-- Relation between the local variables after `k` functions. -/
structure StSim (U : AddSubgroup ℚ) (G : ℚ) (k : Nat) (s : State ℚ) (s' : State (Flt f)) : Prop where
  parts : List.Forall₂ (fun (x : Fn ℚ × Int × Int) (y : Fn (Flt f) × Int × Int) => FnSim (Val U G) x.1 y.1 ∧ y.2 = x.2) s.parts s'.parts
  len : s.parts.length = k
  edge : s'.edge = s.edge.map (inE f)
  cap : ∀ a ∈ s.edge, a.capacity ∈ U
  sum : capSum s.edge = k * (2 * 10 ^ 9)
  mx : s'.mx = Flt.ofRat f s.mx
  mxU : s.mx ∈ U
  mxb : |s.mx| ≤ k * G

theorem StSim.add {k : Nat} {s : State ℚ} {s' : State (Flt f)} (S : StSim U G k s s') (hk : ((k : ℚ) + 1) * G ≤ C) {φ : Fn ℚ} {φ' : Fn (Flt f)}
    (h : FnSim (Val U G) φ φ') (l r : Int) {x y : ℚ} (hx : Val U G x) (hy : Val U G y) {es : List (InputEdge ℚ)} (h1 : ∀ a ∈ es, a.capacity ∈ U)
    (h2 : capSum es = capSum s.edge + 2 * 10 ^ 9) :
    StSim U G (k + 1) ⟨s.parts ++ [(φ, l, r)], es, s.mx + dmax x y⟩
      (⟨s'.parts ++ [(φ', l, r)], es.map (inE f), s'.mx + dmax (Flt.ofRat f x) (Flt.ofRat f y)⟩ : State (Flt f)) := by
  have hv : Val U G (dmax x y) := by
    unfold dmax
    split
    · exact hy
    · exact hx
  have m1 := U.add_mem S.mxU hv.1
  have m2 : |s.mx + dmax x y| ≤ ((k : ℚ) + 1) * G := (abs_add_le _ _).trans (by linarith [S.mxb, hv.2])
  refine ⟨List.rel_append S.parts (.cons ⟨h, rfl⟩ .nil), by simp [S.len], rfl, h1, ?_, ?_, m1, by push_cast; exact m2⟩
  · dsimp only
    rw [h2, S.sum]; push_cast; ring
  · dsimp only
    rw [S.mx, Flt.dmax_ofRat, (b.exU m1 (m2.trans hk)).add]

theorem nodes_sim {Mus : List (MuLimit ℚ)} {Mus' : List (MuLimit (Flt f))} (hM : MusSim (Val U G) Mus Mus') : ∀ (cnt i k : Nat) (s : State ℚ) (s' : State (Flt f)),
    1 ≤ i → ((k + cnt : Nat) : ℚ) * G ≤ C → StSim U G k s s' →
    RSim (nodes imax fuel Mus cnt i s) (nodes imax fuel Mus' cnt i s') (ORel (StSim U G (k + cnt))) := by
  intro cnt
  induction cnt with
  | zero => intro i k s s' _ _ S; exact .ok S
  | succ cnt ih =>
    intro i k s s' hi hk S
    unfold nodes
    refine (hM.rd hi).bind fun m m' _ hm => ?_
    rw [hm.l, hm.u]
    refine .ite Iff.rfl (fun _ => .ok trivial) fun hlr => ?_
    refine (hm.fn m.l).bindR fun x _ hx => (hm.fn m.u).bindR fun y _ hy => ?_
    rw [S.edge]
    refine (split_sim b hm.fn (by omega) i 0 s.edge S.cap).bindR fun es _ hes => ?_
    rw [show k + (cnt + 1) = k + 1 + cnt by ring] at hk ⊢
    refine ih (i + 1) (k + 1) _ _ (by omega) hk (S.add b ?_ hm.fn _ _ hx hy hes.1 hes.2)
    refine le_trans (mul_le_mul_of_nonneg_right ?_ b.G0) hk
    exact_mod_cast (show k + 1 ≤ k + 1 + cnt by omega)

theorem pairs_sim {Mus : List (MuLimit ℚ)} {Mus' : List (MuLimit (Flt f))} (hM : MusSim (Val U G) Mus Mus') {Os : List (OmegaLimit ℚ)} {Os' : List (OmegaLimit (Flt f))}
    (h : List.Forall₂ (OmSim (Val U G)) Os Os') : (∀ o ∈ Os, 1 ≤ o.i ∧ 1 ≤ o.j) → ∀ (k : Nat) (s : State ℚ) (s' : State (Flt f)),
    ((k + Os.length : Nat) : ℚ) * G ≤ C → StSim U G k s s' →
    RSim (pairs imax fuel Mus Os s) (pairs imax fuel Mus' Os' s') (ORel (StSim U G (k + Os.length))) := by
  induction h with
  | nil => intro _ k s s' _ S; exact .ok S
  | cons he hrest ih =>
    rename_i e e' Os Os'
    intro hp k s s' hk S
    unfold pairs
    rw [he.l, he.u, he.i, he.j]
    refine .ite Iff.rfl (fun _ => .ok trivial) fun hlr => ?_
    refine (he.fn e.l).bindR fun x _ hx => (he.fn e.u).bindR fun y _ hy => ?_
    refine (hM.rd (hp e (by simp)).1).bind fun mi mi' _ hmi => (hM.rd (hp e (by simp)).2).bind fun mj mj' _ hmj => ?_
    rw [hmi.l, hmj.u]
    refine Sim.same.bindR fun d _ _ => Sim.same.bindR fun _ _ _ => Sim.same.bindR fun _ _ _ => ?_
    rw [S.edge]
    refine (split_sim b (suffixMin_sim he) (by omega) e.i e.j s.edge S.cap).bindR fun es _ hes => ?_
    rw [List.length_cons, show k + (Os.length + 1) = k + 1 + Os.length by ring] at hk ⊢
    refine ih (fun o ho => hp o (by simp [ho])) (k + 1) _ _ hk (S.add b ?_ (suffixMin_sim he) _ _ hx hy hes.1 hes.2)
    refine le_trans (mul_le_mul_of_nonneg_right ?_ b.G0) hk
    exact_mod_cast (show k + 1 ≤ k + 1 + Os.length by omega)

theorem addMinima_sim {ps : List (Fn ℚ × Int × Int)} {ps' : List (Fn (Flt f) × Int × Int)}
    (h : List.Forall₂ (fun (x : Fn ℚ × Int × Int) (y : Fn (Flt f) × Int × Int) => FnSim (Val U G) x.1 y.1 ∧ y.2 = x.2) ps ps') : ∀ res : ℚ, 2 * res ∈ U →
    |res| + ps.length * G ≤ C → Sim (addMinima imax fuel ps res) (addMinima imax fuel ps' (Flt.ofRat f res)) (Flt.ofRat f) (fun _ => True) := by
  induction h with
  | nil => intro res _ _; exact .ok rfl trivial
  | cons he hrest ih =>
    rename_i x y ps ps'
    obtain ⟨φ, l, r⟩ := x
    obtain ⟨φ', l', r'⟩ := y
    obtain ⟨h1, h2⟩ := he
    cases h2
    intro res hU hb
    unfold addMinima
    refine (ternary_sim h1 fuel l r).bind fun m _ hm => ?_
    rw [List.length_cons] at hb
    push_cast at hb
    have a1 := abs_add_le res m
    have a2 := hm.2
    have a3 : 0 ≤ (ps.length : ℚ) * G := mul_nonneg (Nat.cast_nonneg _) b.G0
    have m1 : 2 * (res + m) ∈ U := by
      rw [mul_add]; exact U.add_mem hU (by rw [two_mul]; exact U.add_mem hm.1 hm.1)
    rw [(b.ex _ m1 (by linarith)).add]
    exact ih _ m1 (by linarith)

/-- The whole of `Solve`. -/
theorem solve_sim {n Rc J : Nat} {Mus : List (MuLimit ℚ)} {Mus' : List (MuLimit (Flt f))} (hM : MusSim (Val U G) Mus Mus') {Os : List (OmegaLimit ℚ)}
    {Os' : List (OmegaLimit (Flt f))} (h : List.Forall₂ (OmSim (Val U G)) Os Os') (hp : ∀ o ∈ Os, 1 ≤ o.i ∧ 1 ≤ o.j)
    (hC : 4 * 10 ^ 9 * ((Rc : ℚ) + 1) * ((n + Os.length : Nat) : ℚ) + ((n + Os.length : Nat) : ℚ) * G ≤ C)
    (hR1 : 1 ≤ Rc) (hJ : Rc * (n + 1) < 2 ^ J) (exP : ∀ x ∈ AddSubgroup.zmultiples (pow2 (-J)), |x| ≤ (12 * (n + 1) + 3) * Rc + 3 → Exact f x)
    (hR : (Rc : Int) ≤ imax)
    (hI : ∀ s1 s2, nodes imax fuel Mus n 1 ⟨[], [], 0⟩ = .ok (some s1) → pairs imax fuel Mus Os s1 = .ok (some s2) →
      (∀ a ∈ s2.edge, a.u ≤ n) ∧ (∀ a ∈ s2.edge, a.v ≤ n) ∧ (∀ a ∈ s2.edge, a.u ≠ a.v) ∧ (∀ a ∈ s2.edge, 0 ≤ a.capacity) ∧ (∀ a ∈ s2.edge, |a.cost| ≤ Rc) ∧
        2 * (s2.edge.length : Int) - 1 ≤ imax) :
    Sim (solve imax fuel n Mus Os) (solve imax fuel n Mus' Os') (Option.map (Flt.ofRat f)) (fun _ => True) := by
  have hN0 : (0 : ℚ) ≤ ((n + Os.length : Nat) : ℚ) := Nat.cast_nonneg _
  have hNG := mul_nonneg hN0 b.G0
  have hW0 : (0 : ℚ) ≤ ((Rc : ℚ) + 1) * ((n + Os.length : Nat) : ℚ) := by positivity
  unfold solve
  have S0 : StSim U G 0 (⟨[], [], 0⟩ : State ℚ) (⟨[], [], 0⟩ : State (Flt f)) :=
    ⟨.nil, rfl, rfl, by simp, by simp [capSum], rfl, U.zero_mem, by simp⟩
  refine (nodes_sim b hM n 1 0 _ _ le_rfl ?_ S0).bindS fun o1 o1' e1 r1 => ?_
  · rw [Nat.zero_add]
    have : (n : ℚ) * G ≤ ((n + Os.length : Nat) : ℚ) * G := mul_le_mul_of_nonneg_right (by exact_mod_cast Nat.le_add_right _ _) b.G0
    linarith
  rcases o1 with _ | s1 <;> rcases o1' with _ | s1'
  · exact .ok rfl trivial
  · exact r1.elim
  · exact r1.elim
  · have S1 : StSim U G (0 + n) s1 s1' := r1
    rw [Nat.zero_add] at S1
    dsimp only
    refine (pairs_sim b hM h hp n _ _ (by linarith) S1).bindS fun o2 o2' e2 r2 => ?_
    rcases o2 with _ | s2 <;> rcases o2' with _ | s2'
    · exact .ok rfl trivial
    · exact r2.elim
    · exact r2.elim
    · have S2 : StSim U G (n + Os.length) s2 s2' := r2
      dsimp only
      obtain ⟨i1, i2, i3, i4, i5, i6⟩ := hI s1 s2 e1 e2
      refine .bind_same fun n1 hn1 => ?_
      have hn1 := ck_eq hn1
      subst hn1
      rw [show ((n : Int) + 1).toNat = n + 1 by omega, S2.edge]
      have hsum : (s2.edge.map fun a => a.capacity * (|(a.cost : ℚ)| + 1)).sum ≤ 2 * 10 ^ 9 * (((Rc : ℚ) + 1) * ((n + Os.length : Nat) : ℚ)) := by
        have : (s2.edge.map fun a => a.capacity * (|(a.cost : ℚ)| + 1)).sum ≤ (s2.edge.map fun a => ((Rc : ℚ) + 1) * a.capacity).sum :=
          List.sum_le_sum fun a ha => by
            rw [mul_comm]
            refine mul_le_mul_of_nonneg_right ?_ (i4 a ha)
            have : |(a.cost : ℚ)| ≤ Rc := by exact_mod_cast i5 a ha
            linarith
        refine this.trans (le_of_eq ?_)
        rw [List.sum_map_mul_left]
        show _ * capSum s2.edge = _
        rw [S2.sum]; ring
      have hB : CS.MinB f (n + 1) s2.edge U Rc J := by
        refine ⟨S2.cap, fun x hx hb => b.ex x hx ?_, hR1, i5, hJ, fun x hx hb => exP x hx (by push_cast at hb ⊢; exact hb)⟩
        linarith
      refine (CS.minCost_sim hB (fun a ha => by have := i1 a ha; omega) (fun a ha => by have := i2 a ha; omega) i3 i4 i6 hR).bind fun r _ hr => ?_
      obtain ⟨ret, res⟩ := r
      dsimp only at hr ⊢
      refine (addMinima_sim b S2.parts res hr.1 ?_).bind fun v _ _ => ?_
      · rw [S2.len]
        linarith [hr.2]
      · rw [S2.mx]
        exact .ite Flt.lt_ofRat (fun _ => .ok rfl trivial) fun _ => .ok rfl trivial

end SimpleSolver
end AHO

namespace AHO.SimpleSolver
open Spec
variable {K : Type} [Field K] [LinearOrder K] [IsStrictOrderedRing K] {P : Problem K} {Mus : List (MuLimit K)} {R imax : Int} {fuel : Nat}

/-- What is known about the arcs before `MinCost`. -/
theorem solve_edges {Omegas : List (OmegaLimit K)} (rep : Represents P Mus Omegas) (wf : WellFormed P) (cv : ConvexCosts P)
    (wi : Within P R) (hl : ∀ p ∈ P.pairs, -R ≤ p.l) (sp : Spread P (bigM : K)) (hR0 : 0 ≤ R) (hR : 2 * R + 1 ≤ imax)
    (hn : (P.n : Int) + 1 ≤ imax) (hf : solveFuel P.n P.pairs.length R ≤ fuel) :
    ∃ s1 s2 ps, nodes imax fuel Mus P.n 1 ⟨[], [], 0⟩ = .ok (some s1) ∧ pairs imax fuel Mus Omegas s1 = .ok (some s2) ∧ Inv P.n R ps s2 ∧
      ps.length = P.n + P.pairs.length := by
  unfold solveFuel at hf
  have hf1 : 2 * R + 1 < (fuel : Int) := by omega
  have hlo : ∀ i, 1 ≤ i → i ≤ P.n → -R ≤ P.lo i ∧ P.lo i ≤ R := fun i h1 h2 =>
    ⟨wi.lo i h1 h2, (wf.nodes i h1 h2).trans (wi.hi i h1 h2)⟩
  have hhi : ∀ i, 1 ≤ i → i ≤ P.n → -R ≤ P.hi i ∧ P.hi i ≤ R := fun i h1 h2 =>
    ⟨(wi.lo i h1 h2).trans (wf.nodes i h1 h2), wi.hi i h1 h2⟩
  have g0 : ∀ p ∈ ProblemSolver.musP P, ArcIn P.n R (2 * R) p := by
    intro p hp
    obtain ⟨k, k1, k2, rfl⟩ := ProblemSolver.mem_musP.1 hp
    have h1 := hlo k k1 k2
    have h2 := hhi k k1 k2
    exact ⟨k2, Nat.zero_le _, by show k ≠ 0; omega, wf.nodes k k1 k2, h1.1, h2.2, by show P.hi k - P.lo k ≤ _; omega, cv.nodes k k1 k2⟩
  have g1 : ∀ p ∈ P.pairs, ArcIn P.n R (2 * R) p := by
    intro p hp
    have h1 := hl p hp
    have h2 := wi.u p hp
    exact ⟨wf.i_le p hp, wf.j_le p hp, wf.ne p hp, wf.le p hp, h1, h2, by omega, cv.pairs p hp⟩
  have g : ∀ p ∈ ProblemSolver.musP P ++ P.pairs, ArcIn P.n R (2 * R) p := fun p hp => (List.mem_append.1 hp).elim (g0 p) (g1 p)
  have hsum := spread_sum sp g
  have hone : ∀ p ∈ ProblemSolver.musP P ++ P.pairs, mxP p - mnP p ≤ bigM := by
    intro p hp
    have h1 := le_sum_map (f := fun p : Pair K => mxP p - mnP p) (fun q hq => sub_nonneg.2 (mn_le_mx (g q hq))) p hp
    have h2 : ((ProblemSolver.musP P ++ P.pairs).map fun p : Pair K => mxP p - mnP p).sum =
        ((ProblemSolver.musP P ++ P.pairs).map mxP).sum - ((ProblemSolver.musP P ++ P.pairs).map mnP).sum := by
      generalize ProblemSolver.musP P ++ P.pairs = L
      induction L with
      | nil => simp
      | cons a L ih => simp only [List.map_cons, List.sum_cons, ih]; ring
    rw [h2] at h1
    linarith
  have I0 : Inv P.n R ([] : List (Pair K)) (⟨[], [], 0⟩ : State K) := by
    refine ⟨.nil, fun π => by simp [slackCost, penalised], ?_, ?_, ?_, ?_, ?_, ?_, by simp⟩ <;> simp
  obtain ⟨s1, e1, I1, m1⟩ := nodes_spec (imax := imax) (fuel := fuel) (W := 2 * R) rep.len rep.mus g0
    (fun p hp => hone p (List.mem_append_left _ hp)) hR hf1 P.n 1 [] ⟨[], [], 0⟩ le_rfl (by omega) I0
  obtain ⟨qs, s2, e2, I2, m2, c1, c2⟩ := pairs_spec (imax := imax) (fuel := fuel) rep.len rep.mus hlo hhi hR hn hf1 Omegas P.pairs _ s1
    rep.omegas (fun p hp => ⟨wf.i_pos p hp, wf.j_pos p hp, g1 p hp, hone p (List.mem_append_right _ hp), wi.diff p hp⟩) I1
  refine ⟨s1, s2, _, e1, e2, I2, ?_⟩
  simp [c1.length_eq]

end AHO.SimpleSolver
