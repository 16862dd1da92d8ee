import Verif.Model.IntData
import Verif.Proof.Double
import Verif.Proof.Transform
/-!
# The program with an integer type as `Data`
-/

namespace AHO
open Spec Format

namespace SInt
variable {b : Int} {ov : Int → Int}

/-- the integers below `(b + 1) / 2` -/
def Small (b : Int) (x : ℚ) : Prop := ∃ k : Int, x = k ∧ 2 * |k| ≤ b

theorem res_ok {x : Int} (h1 : -b - 1 ≤ x) (h2 : x ≤ b) : res b ov x = of b ov x := by
  unfold res of
  rw [if_pos ⟨h1, h2⟩]

theorem res_ok' {x : Int} (h : |x| ≤ b) : res b ov x = of b ov x := by
  have := abs_le.1 h
  exact res_ok (by omega) this.2

theorem mem_U {x : ℚ} : x ∈ AddSubgroup.zmultiples (pow2 0) ↔ ∃ k : Int, x = k := by
  have : pow2 0 = 1 := by simp [pow2]
  rw [this, AddSubgroup.mem_zmultiples_iff]
  simp only [zsmul_eq_mul, mul_one]
  exact ⟨fun ⟨k, h⟩ => ⟨k, h.symm⟩, fun ⟨k, h⟩ => ⟨k, h.symm⟩⟩

/-- the integers -/
def emb (b : Int) (ov : Int → Int) : FEmb ℚ (SInt b ov) where
  e := fun x => of b ov ⌊x⌋
  I := Small b
  U := AddSubgroup.zmultiples (pow2 0)
  le := by
    rintro _ _ ⟨k, rfl, -⟩ ⟨l, rfl, -⟩
    rw [Int.floor_intCast, Int.floor_intCast, Int.cast_le]; rfl
  lt := by
    rintro _ _ ⟨k, rfl, -⟩ ⟨l, rfl, -⟩
    rw [Int.floor_intCast, Int.floor_intCast, Int.cast_lt]; rfl
  beq := by
    rintro _ a ⟨k, rfl, -⟩ ⟨l, h, -⟩
    obtain rfl : a = ((l - k : Int) : ℚ) := by push_cast; linarith
    rw [Int.floor_intCast]
    show decide (_ = _) = _
    rw [decide_eq_decide]
    exact (Int.cast_eq_zero (α := ℚ)).symm
  zero := by rw [Int.floor_zero]; rfl
  add := by
    rintro _ t ⟨k, rfl, -⟩ ⟨l, h, hl⟩
    obtain rfl : t = ((l - k : Int) : ℚ) := by push_cast; linarith
    rw [h, Int.floor_intCast, Int.floor_intCast, Int.floor_intCast]
    refine (res_ok' (x := l) (by have := abs_nonneg l; omega)).symm.trans ?_
    show _ = res b ov (k + (l - k))
    rw [add_sub_cancel]
  tag := by
    rintro v s t ⟨k, hk, hk'⟩ ⟨l, rfl, -⟩ ⟨m, hm, hm'⟩
    obtain rfl : s = ((l - k : Int) : ℚ) := by push_cast; linarith
    obtain rfl : t = ((m - l : Int) : ℚ) := by push_cast; linarith
    rw [← Int.cast_add, Int.floor_intCast, Int.floor_intCast, Int.floor_intCast]
    refine (res_ok' ?_).symm
    have := abs_sub m k
    rw [show l - k + (m - l) = m - k by ring]
    omega
  one := by rw [Int.floor_one]; rfl
  plus := by
    rintro a c ha ⟨l, h, hl⟩
    obtain ⟨k, rfl⟩ := mem_U.1 ha
    obtain rfl : c = ((l - k : Int) : ℚ) := by push_cast; linarith
    rw [h, Int.floor_intCast, Int.floor_intCast, Int.floor_intCast]
    refine (res_ok' (x := l) (by have := abs_nonneg l; omega)).symm.trans ?_
    show _ = res b ov (k + (l - k))
    rw [add_sub_cancel]
  sub := by
    rintro a c ha ⟨l, h, hl⟩
    obtain ⟨k, rfl⟩ := mem_U.1 ha
    obtain rfl : c = ((k - l : Int) : ℚ) := by push_cast; linarith
    rw [h, Int.floor_intCast, Int.floor_intCast, Int.floor_intCast]
    refine (res_ok' (x := l) (by have := abs_nonneg l; omega)).symm.trans ?_
    show _ = res b ov (k - (k - l))
    rw [sub_sub_cancel]
  neg := by
    rintro _ ⟨k, rfl, hk⟩
    rw [← Int.cast_neg, Int.floor_intCast, Int.floor_intCast]
    exact (res_ok' (by rw [abs_neg]; have := abs_nonneg k; omega)).symm
  mul := by
    rintro a k ha ⟨k', h, hk⟩ ⟨m, hm, hm'⟩
    obtain ⟨l, rfl⟩ := mem_U.1 ha
    obtain rfl : k = k' := by exact_mod_cast h
    have hm : l * k = m := by exact_mod_cast hm
    rw [← Int.cast_mul, Int.floor_intCast, Int.floor_intCast]
    have e : ((k : Int) : SInt b ov) = of b ov k := res_ok' (by have := abs_nonneg k; omega)
    rw [e]
    exact (res_ok' (by rw [hm]; have := abs_nonneg m; omega)).symm
  half := by
    rintro a ha ⟨k', h, hk⟩ ⟨m, hm, hm'⟩
    obtain ⟨l, rfl⟩ := mem_U.1 ha
    obtain rfl : 2 = k' := by exact_mod_cast h
    obtain rfl : l = 2 * m := by
      have : (l : ℚ) = 2 * m := by rw [← hm]; push_cast; ring
      exact_mod_cast this
    have e : ((2 : Int) : SInt b ov) = of b ov 2 := res_ok' (by have := abs_nonneg (2 : Int); omega)
    rw [hm, Int.floor_intCast, Int.floor_intCast, e]
    refine (res_ok' (x := m) (by have := abs_nonneg m; omega)).symm.trans ?_
    show _ = res b ov ((2 * m).tdiv 2)
    rw [Int.mul_tdiv_cancel_left _ (by norm_num)]

end SInt

/-! ### Problems with integer costs -/

namespace Spec.Problem
variable {P : Problem Int}

theorem feasible_mapCosts {K D : Type} {f : K → D} {P : Problem K} {μ ω : Nat → Int} : Feasible (P.mapCosts f) μ ω ↔ Feasible P μ ω := by
  unfold Feasible mapCosts
  simp only [List.length_map, List.getElem_map]

theorem cost_mapCosts {K D : Type} [AddCommMonoid K] [AddCommMonoid D] (f : K →+ D) {P : Problem K} {μ ω : Nat → Int} :
    cost (P.mapCosts f) μ ω = f (cost P μ ω) := by
  unfold cost
  rw [map_add, map_sum, map_sum]
  congr 1
  refine Fintype.sum_equiv (finCongr (by simp [mapCosts])) _ _ fun ⟨k, hk⟩ => ?_
  have h : k < P.pairs.length := by simpa [mapCosts] using hk
  have e : (P.mapCosts f).pairs[k]'hk = ⟨P.pairs[k].i, P.pairs[k].j, P.pairs[k].l, P.pairs[k].u, fun x => f (P.pairs[k].B x)⟩ :=
    List.getElem_map _
  exact congrArg (fun p => p.B (ω k)) e

theorem solvable_mapCosts {K D : Type} {f : K → D} {P : Problem K} : Solvable (P.mapCosts f) ↔ Solvable P :=
  exists_congr fun _ => exists_congr fun _ => feasible_mapCosts

theorem optimum_cast {v : ℚ} : IsOptimum (P.mapCosts (Int.cast : Int → ℚ)) v ↔ ∃ k : Int, v = k ∧ IsOptimum P k := by
  have hc : ∀ μ ω, cost (P.mapCosts (Int.cast : Int → ℚ)) μ ω = ((cost P μ ω : Int) : ℚ) := fun μ ω => cost_mapCosts (Int.castAddHom ℚ)
  unfold IsOptimum
  simp only [feasible_mapCosts, hc]
  constructor
  · rintro ⟨⟨μ, ω, h1, rfl⟩, h2⟩
    exact ⟨_, rfl, ⟨μ, ω, h1, rfl⟩, fun μ' ω' h => by exact_mod_cast h2 μ' ω' h⟩
  · rintro ⟨k, rfl, ⟨μ, ω, h1, h2⟩, h3⟩
    exact ⟨⟨μ, ω, h1, by rw [h2]⟩, fun μ' ω' h => by exact_mod_cast h3 μ' ω' h⟩

theorem convex_cast (h : ConvexCosts P) : ConvexCosts (P.mapCosts (Int.cast : Int → ℚ)) := by
  refine ⟨fun i h1 h2 x h3 h4 => ?_, fun p hp x h3 h4 => ?_⟩
  · have := h.nodes i h1 h2 x h3 h4
    show ((_ : Int) : ℚ) - ((_ : Int) : ℚ) ≤ ((_ : Int) : ℚ) - ((_ : Int) : ℚ)
    exact_mod_cast this
  · obtain ⟨p', hp', rfl⟩ := List.mem_map.1 hp
    have := h.pairs p' hp' x h3 h4
    show ((_ : Int) : ℚ) - ((_ : Int) : ℚ) ≤ ((_ : Int) : ℚ) - ((_ : Int) : ℚ)
    exact_mod_cast this

theorem wf_mapCosts {K D : Type} {f : K → D} {P : Problem K} (h : WellFormed P) : WellFormed (P.mapCosts f) := by
  refine ⟨h.nodes, ?_, ?_, ?_, ?_, ?_, ?_⟩ <;>
  · intro p hp
    obtain ⟨p', hp', rfl⟩ := List.mem_map.1 hp
    first
      | exact h.i_pos p' hp'
      | exact h.i_le p' hp'
      | exact h.j_pos p' hp'
      | exact h.j_le p' hp'
      | exact h.ne p' hp'
      | exact h.le p' hp'

theorem within_mapCosts {K D : Type} {f : K → D} {P : Problem K} {R : Int} (h : Within P R) : Within (P.mapCosts f) R := by
  refine ⟨h.lo, h.hi, ?_, ?_⟩ <;>
  · intro p hp
    obtain ⟨p', hp', rfl⟩ := List.mem_map.1 hp
    first
      | exact h.u p' hp'
      | exact h.diff p' hp'

theorem widths_mapCosts {K D : Type} {f : K → D} {P : Problem K} {R : Int} (h : Widths P R) : Widths (P.mapCosts f) R := by
  refine ⟨h.nodes, ?_⟩
  intro p hp
  obtain ⟨p', hp', rfl⟩ := List.mem_map.1 hp
  exact h.pairs p' hp'

theorem representable_mapCosts {K D : Type} {f : K → D} {P : Problem K} {imax : Int} (h : Representable imax P) :
    Representable imax (P.mapCosts f) := by
  refine ⟨?_, ?_⟩ <;>
  · intro p hp
    obtain ⟨p', hp', rfl⟩ := List.mem_map.1 hp
    first
      | exact h.lo p' hp'
      | exact h.width p' hp'

theorem mapCosts_mapCosts {K D D' : Type} (P : Problem K) (f : K → D) (g : D → D') :
    (P.mapCosts f).mapCosts g = P.mapCosts fun x => g (f x) := by
  unfold mapCosts
  simp

end Spec.Problem

namespace ProblemSolver
open Spec.Problem

/-- The run with integers returns the optimum. -/
theorem run_int {b : Int} {ov : Int → Int} {imax : Int} {W : Nat} {P : Problem Int} {Mus : List (MuLimit (SInt b ov))}
    {Omegas : List (OmegaLimit (SInt b ov))} {G : Nat}
    (rep : Represents (P.mapCosts (SInt.of b ov)) Mus Omegas) (wf : WellFormed P) (cv : ConvexCosts P) (wi : Within P W)
    (wd : Widths P W) (ri : Representable imax P) (hn : P.n + 1 < 2 ^ 64)
    (hcap : ((6 * (P.n + 1) * bitCeil ((P.n + 1) * W) : Nat) : Int) ≤ imax) (hv : P.AllCosts fun v => |v| ≤ G)
    (hI : 2 * (((1 + 2 * ((P.pairs.length + P.n) * G)) *
      (2 * (P.pairs.length + P.n) * (Nat.clog 2 (2 * (P.n + 1) * W) + W + 2) + 2) + W + 2 : Nat) : Int) ≤ b) :
    ∃ r : Option Int, Returns (fun fuel => run imax fuel P.n Mus Omegas) (r.map (SInt.of b ov)) ∧
      (∀ v, r = some v ↔ IsOptimum P v) ∧ (r = none ↔ ¬ Solvable P) := by
  have hmap : (P.mapCosts (Int.cast : Int → ℚ)).mapCosts (SInt.emb b ov).e = P.mapCosts (SInt.of b ov) := by
    rw [mapCosts_mapCosts]
    exact congrArg P.mapCosts (funext fun x => congrArg (SInt.of b ov) (Int.floor_intCast x))
  have hlen : (P.mapCosts (Int.cast : Int → ℚ)).pairs.length = P.pairs.length := by simp [mapCosts]
  have hn' : (P.mapCosts (Int.cast : Int → ℚ)).n = P.n := rfl
  set T : Nat := (1 + 2 * ((P.pairs.length + P.n) * G)) *
      (2 * (P.pairs.length + P.n) * (Nat.clog 2 (2 * (P.n + 1) * W) + W + 2) + 2) + W + 2 with hT
  have hE : ∀ x ∈ (SInt.emb b ov).U, |x| < (T : ℚ) + 1 → (SInt.emb b ov).I x := by
    intro x hx hb
    obtain ⟨k, rfl⟩ := SInt.mem_U.1 hx
    refine ⟨k, rfl, ?_⟩
    have : |k| < (T : Int) + 1 := by exact_mod_cast hb
    omega
  have hc : (P.mapCosts (Int.cast : Int → ℚ)).AllCosts fun v => (∃ k : Int, v = k * (2 : ℚ) ^ (0 : Int)) ∧ |v| ≤ (G : ℚ) := by
    refine ⟨fun i h1 h2 x h3 h4 => ⟨⟨P.F i x, ?_⟩, ?_⟩, fun p hp x h3 h4 => ?_⟩
    · show ((P.F i x : Int) : ℚ) = _
      simp
    · show |((P.F i x : Int) : ℚ)| ≤ _
      exact_mod_cast hv.nodes i h1 h2 x h3 h4
    · obtain ⟨p', hp', rfl⟩ := List.mem_map.1 hp
      refine ⟨⟨p'.B x, ?_⟩, ?_⟩
      · show ((p'.B x : Int) : ℚ) = _
        simp
      · show |((p'.B x : Int) : ℚ)| ≤ _
        exact_mod_cast hv.pairs p' hp' x h3 h4
  have hB : (1 + 2 * (((P.mapCosts (Int.cast : Int → ℚ)).pairs.length + (P.mapCosts (Int.cast : Int → ℚ)).n : Nat) * (G : ℚ))) *
      (2 * ((P.mapCosts (Int.cast : Int → ℚ)).pairs.length + (P.mapCosts (Int.cast : Int → ℚ)).n : Nat) *
        (Nat.clog 2 (2 * ((P.mapCosts (Int.cast : Int → ℚ)).n + 1) * W) + W + 2) + 2) + W + 2 < (T : ℚ) + 1 := by
    rw [hlen, hn', hT]
    push_cast
    linarith
  obtain ⟨r, h1, h2⟩ := run_lattice (SInt.emb b ov) (j := 0) (B := (T : ℚ) + 1) rfl hE le_rfl (imax := imax) (W := W)
    (P := P.mapCosts (Int.cast : Int → ℚ)) (Mus := Mus) (Omegas := Omegas) (G := G) (by rw [hmap]; exact rep)
    (wf_mapCosts wf) (convex_cast cv) (within_mapCosts wi) (widths_mapCosts wd) (representable_mapCosts ri) hn hcap
    (Nat.cast_nonneg _) hc hB
  have o1 := fun v => outcome_some h1 v
  have o2 := outcome_none h1
  rw [solvable_mapCosts] at o2
  cases r with
  | none =>
    refine ⟨none, h2, fun v => ⟨fun h => by simp at h, fun h => ?_⟩, ?_⟩
    · have := (o1 v).2 (optimum_cast.2 ⟨v, rfl, h⟩)
      simp at this
    · simpa using o2
  | some q =>
    obtain ⟨k, rfl, hk⟩ := optimum_cast.1 ((o1 q).1 rfl)
    refine ⟨some k, ?_, fun v => ⟨fun h => ?_, fun h => ?_⟩, ?_⟩
    · have : (SInt.emb b ov).e ((k : Int) : ℚ) = SInt.of b ov k := congrArg (SInt.of b ov) (Int.floor_intCast k)
      rw [Option.map_some, this] at h2
      exact h2
    · cases h; exact hk
    · have := (o1 v).2 (optimum_cast.2 ⟨v, rfl, h⟩)
      simpa using this
    · simpa using o2

end ProblemSolver
end AHO
