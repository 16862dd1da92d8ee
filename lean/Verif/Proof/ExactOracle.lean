import Verif.Proof.ExactInput
import Verif.Model.Oracle
/-!
# `bf_solve` in floating-point arithmetic
-/

namespace AHO
open Format Spec

variable {f : Format} {V : ℚ → Prop}

theorem partitionPoint_sim {imax : Int} {pred pred' : Int → Res Bool} (h : ∀ x, Sim (pred x) (pred' x) (fun b => b) (fun _ => True)) :
    ∀ (fuel : Nat) (l r : Int), Sim (partitionPoint imax pred fuel l r) (partitionPoint imax pred' fuel l r) (fun b => b) (fun _ => True) := by
  intro fuel
  induction fuel with
  | zero => intro l r; exact .error
  | succ fuel ih =>
    intro l r
    unfold partitionPoint
    refine .ite Iff.rfl (fun _ => ?_) fun _ => .ok rfl trivial
    refine .bind_same fun d _ => .bind_same fun mid _ => (h mid).bind fun b _ _ => ?_
    exact .ite Iff.rfl (fun _ => .bind_same fun l' _ => ih _ _) fun _ => ih _ _

theorem descends_sim {imax : Int} {φ : Fn ℚ} {φ' : Fn (Flt f)} (h : FnSim V φ φ') (x : Int) :
    Sim (descends imax φ x) (descends imax φ' x) (fun b => b) (fun _ => True) := by
  unfold descends
  refine (h x).bind fun a _ _ => .bind_same fun x1 _ => (h x1).bind fun b _ _ => .ok ?_ trivial
  exact decide_eq_decide.2 Flt.lt_ofRat

theorem preProcessing_sim {imax : Int} {fuel : Nat} {e : OmegaLimit ℚ} {e' : OmegaLimit (Flt f)} (h : OmSim V e e') :
    RSim (e.preProcessing imax fuel) (e'.preProcessing imax fuel) (OmSim V) := by
  unfold OmegaLimit.preProcessing
  rw [h.l, h.u]
  refine (partitionPoint_sim (descends_sim h.fn) fuel e.l e.u).bindR fun m _ _ => .ok ?_
  exact ⟨⟨rfl, rfl, fun x => h.fn _⟩, h.i, h.j⟩

namespace Oracle

theorem preAll_sim {imax : Int} {fuel : Nat} {l : List (OmegaLimit ℚ)} {l' : List (OmegaLimit (Flt f))} (h : List.Forall₂ (OmSim V) l l') :
    RSim (preAll imax fuel l) (preAll imax fuel l') (List.Forall₂ (OmSim V)) := by
  induction h with
  | nil => exact .ok .nil
  | cons h1 _ ih =>
    unfold preAll
    exact (preProcessing_sim h1).bind fun a b _ h2 => ih.bind fun c d _ h3 => .ok (.cons h2 h3)

theorem preAll_length {imax : Int} {fuel : Nat} : ∀ {l r : List (OmegaLimit ℚ)}, preAll imax fuel l = .ok r → r.length = l.length
  | [], r, h => by cases h; rfl
  | a :: l, r, h => by
    unfold preAll at h
    obtain ⟨a', -, h⟩ := bind_eq_ok.1 h
    obtain ⟨r', h1, h⟩ := bind_eq_ok.1 h
    cases h
    simp [preAll_length h1]

/-- values which are sums of `k` costs -/
def Sums (U : AddSubgroup ℚ) (G : ℚ) (k : Nat) (x : ℚ) : Prop := x ∈ U ∧ |x| ≤ k * G

variable {U : AddSubgroup ℚ} {G : ℚ} {N : Nat}

theorem Sums.add {k : Nat} {x y : ℚ} (h : Sums U G k x) (hy : y ∈ U ∧ |y| ≤ G) : Sums U G (k + 1) (x + y) := by
  refine ⟨U.add_mem h.1 hy.1, (abs_add_le x y).trans ?_⟩
  have := h.2
  have := hy.2
  push_cast
  linarith

theorem minRet_ofRat (ret : Option ℚ) (s : ℚ) : minRet (ret.map (Flt.ofRat f)) (Flt.ofRat f s) = (minRet ret s).map (Flt.ofRat f) := by
  cases ret with
  | none => rfl
  | some r =>
    unfold minRet
    by_cases h : s < r
    · simp only [Option.map_some, if_pos h, if_pos (Flt.lt_ofRat.2 h)]
    · simp only [Option.map_some, if_neg h, if_neg (fun h' => h (Flt.lt_ofRat.1 h'))]

variable (hE : ∀ x, Sums U G N x → Exact f x) (hG : 0 ≤ G)
include hE hG

theorem exact_sum {k : Nat} {x : ℚ} (h : Sums U G k x) (hk : k ≤ N) : Exact f x :=
  hE x ⟨h.1, h.2.trans (mul_le_mul_of_nonneg_right (by exact_mod_cast hk) hG)⟩

theorem leaf_sim {imax : Int} {v : Vec Int} {ret : Option ℚ} {l : List (OmegaLimit ℚ)} {l' : List (OmegaLimit (Flt f))}
    (h : List.Forall₂ (OmSim fun y => y ∈ U ∧ |y| ≤ G) l l') : ∀ {k : Nat} {s : ℚ}, Sums U G k s → k + l.length ≤ N →
    Sim (leaf imax v ret l s) (leaf imax v (ret.map (Flt.ofRat f)) l' (Flt.ofRat f s)) (Option.map (Flt.ofRat f)) (fun _ => True) := by
  induction h with
  | nil => intro k s _ _; exact .ok (minRet_ofRat _ _) trivial
  | cons h1 _ ih =>
    intro k s hs hk
    unfold leaf
    rw [h1.i, h1.j, h1.u]
    refine .bind_same fun a _ => .bind_same fun b _ => .bind_same fun x _ => ?_
    refine .ite Iff.rfl (fun _ => .ok rfl trivial) fun _ => (h1.fn x).bind fun y _ hy => ?_
    have h2 := hs.add hy
    rw [List.length_cons] at hk
    rw [(exact_sum hE hG h2 (by omega)).add]
    exact ih h2 (by omega)

theorem dfs_sim {imax : Int} {fuel : Nat} {Mus : List (MuLimit ℚ)} {Mus' : List (MuLimit (Flt f))} (hM : MusSim (fun y => y ∈ U ∧ |y| ≤ G) Mus Mus')
    {l : List (OmegaLimit ℚ)} {l' : List (OmegaLimit (Flt f))} (h : List.Forall₂ (OmSim fun y => y ∈ U ∧ |y| ≤ G) l l') :
    ∀ (c p k : Nat) (s : ℚ) (v : Vec Int) (ret : Option ℚ), Sums U G k s → k + c + l.length ≤ N →
    Sim (dfs imax fuel Mus l c p s (v, ret)) (dfs imax fuel Mus' l' c p (Flt.ofRat f s) (v, ret.map (Flt.ofRat f)))
      (fun r => (r.1, r.2.map (Flt.ofRat f))) (fun _ => True) := by
  intro c
  induction c with
  | zero =>
    intro p k s v ret hs hk
    unfold dfs
    exact (leaf_sim hE hG h hs (by omega)).bind fun r _ _ => .ok rfl trivial
  | succ c ih =>
    intro p k s v ret hs hk
    unfold dfs
    refine (hM.rd (by omega)).bindS fun m m' _ hm => ?_
    rw [hm.l, hm.u]
    refine .bind_same fun v1 _ => ?_
    refine (Sim.whileLoop (g := fun r : Vec Int × Option ℚ => (r.1, r.2.map (Flt.ofRat f))) (fun _ => True) (fun st _ => ?_) (fun st _ _ => ?_) fuel
      (v1, ret) trivial).mono fun _ _ => trivial
    · exact .bind_same fun i _ => .ok rfl trivial
    · refine .bind_same fun i _ => (hm.fn i).bind fun y _ hy => ?_
      have h2 := hs.add hy
      rw [(exact_sum hE hG h2 (by omega)).add]
      refine (ih (p + 1) (k + 1) (s + y) st.1 st.2 h2 (by omega)).bind fun st' _ _ => ?_
      exact .bind_same fun i _ => .bind_same fun i' _ => .bind_same fun v' _ => .ok rfl trivial

theorem bfSolve_sim {imax : Int} {fuel n : Nat} {Mus : List (MuLimit ℚ)} {Mus' : List (MuLimit (Flt f))} (hM : MusSim (fun y => y ∈ U ∧ |y| ≤ G) Mus Mus')
    {l : List (OmegaLimit ℚ)} {l' : List (OmegaLimit (Flt f))} (h : List.Forall₂ (OmSim fun y => y ∈ U ∧ |y| ≤ G) l l') (hN : n + l.length ≤ N) :
    Sim (bfSolve imax fuel n Mus l) (bfSolve imax fuel n Mus' l') (Option.map (Flt.ofRat f)) (fun _ => True) := by
  unfold bfSolve
  refine (preAll_sim h).bindS fun a b ha hab => ?_
  have hl := preAll_length ha
  rw [Flt.zero_ofRat]
  exact (dfs_sim hE hG hM hab n 0 0 0 _ none ⟨U.zero_mem, by simp⟩ (by omega)).bind fun st _ _ => .ok rfl trivial

end Oracle
end AHO
