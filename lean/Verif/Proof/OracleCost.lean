import Verif.Model.OracleCost
import Verif.Proof.SolverTime
import Verif.Proof.FlowAmort
import Mathlib.Algebra.BigOperators.Group.List.Basic
import Mathlib.Data.Nat.Size
import Mathlib.Algebra.BigOperators.Ring.Finset
/-!
# Evaluations of cost functions by `bf_solve`
-/

namespace AHO
namespace Oracle
open LCT
set_option linter.unusedSectionVars false
variable {D : Type} [Zero D] [Add D] [LT D] [DecidableLT D]
variable {imax : Int} {fuel : Nat}

/-! ## Without the counter -/

theorem preAllC_er (imax : Int) (fuel : Nat) : ∀ es : List (OmegaLimit D), Er (preAllC imax fuel es) (preAll imax fuel es) := by
  intro es
  induction es with
  | nil => exact .ok _ _
  | cons e es ih =>
    unfold preAllC preAll
    exact (preProcessingC_er _ _ _).bind fun c e => ih.bind fun k es => .ok _ _

theorem leafC_er (imax : Int) (v : Vec Int) (ret : Option D) : ∀ (es : List (OmegaLimit D)) (sum : D),
    Er (leafC imax v ret es sum) (leaf imax v ret es sum) := by
  intro es
  induction es with
  | nil => intro sum; exact .ok _ _
  | cons e es ih =>
    intro sum
    unfold leafC leaf
    refine .bind' fun a => .bind' fun b => .bind' fun x => ?_
    split
    · exact .ok _ _
    · exact .bind' fun y => (ih _).recount (· + 1)

theorem dfsC_er (imax : Int) (fuel : Nat) (Mus : List (MuLimit D)) (es : List (OmegaLimit D)) : ∀ (k p : Nat) (sum : D)
    (st : Nat × Vec Int × Option D), Er (dfsC imax fuel Mus es k p sum st) (dfs imax fuel Mus es k p sum st.2) := by
  intro k
  induction k with
  | zero =>
    rintro p sum ⟨c, v, ret⟩
    unfold dfsC dfs
    exact (leafC_er _ _ _ _ _).bind fun k r => .ok _ _
  | succ k ih =>
    rintro p sum ⟨c, v, ret⟩
    unfold dfsC dfs
    refine .bind' fun m => .bind' fun v => ?_
    refine whileLoop_er (γ := Nat) (α := Vec Int × Option D)
      (cond' := fun st => do
        let i ← st.1.rd (p + 1)
        .ok (decide (i ≤ m.u)))
      (body' := fun st => do
        let i ← st.1.rd (p + 1)
        let y ← m.fn i
        let st ← dfs imax fuel Mus es k (p + 1) (sum + y) st
        let i ← st.1.rd (p + 1)
        let i' ← ck imax (i + 1)
        let v ← st.1.wr (p + 1) i'
        .ok (v, st.2)) (fun _ => rfl) (fun s => ?_) fuel (c, v, ret)
    exact .bind' fun i => .bind' fun y => (ih _ _ _).bind fun c st => .bind' fun i => .bind' fun i' => .bind' fun v => .ok _ _

theorem bfSolveC_er (imax : Int) (fuel : Nat) (n : Nat) (Mus : List (MuLimit D)) (es : List (OmegaLimit D)) :
    Er (bfSolveC imax fuel n Mus es) (bfSolve imax fuel n Mus es) := by
  unfold bfSolveC bfSolve
  exact (preAllC_er _ _ _).bind fun c es => (dfsC_er _ _ _ _ _ _ _ _).bind fun c st => .ok _ _

/-! ## Bounds -/

theorem leafC_count {v : Vec Int} {ret : Option D} : ∀ (es : List (OmegaLimit D)) (sum : D) {k : Nat} {r : Option D},
    leafC imax v ret es sum = .ok (k, r) → k ≤ es.length := by
  intro es
  induction es with
  | nil => intro sum k r e; cases e; exact Nat.zero_le _
  | cons e es ih =>
    intro sum k r h
    unfold leafC at h
    obtain ⟨a, -, h⟩ := bind_ok h
    obtain ⟨b, -, h⟩ := bind_ok h
    obtain ⟨x, -, h⟩ := bind_ok h
    split at h
    · cases h; exact Nat.zero_le _
    · obtain ⟨y, -, h⟩ := bind_ok h
      obtain ⟨⟨k', r'⟩, e1, h⟩ := bind_ok h
      cases h
      exact Nat.succ_le_succ (ih _ e1)

/-- assignments of values to the `k` nodes after `p`, when node `i` has `w i` values -/
def boxes (w : Nat → Nat) : Nat → Nat → Nat
  | _, 0 => 1
  | p, k + 1 => w (p + 1) * boxes w (p + 1) k

/-- nonempty partial assignments to the `k` nodes after `p` -/
def stems (w : Nat → Nat) : Nat → Nat → Nat
  | _, 0 => 0
  | p, k + 1 => w (p + 1) * (1 + stems w (p + 1) k)

theorem boxes_eq (w : Nat → Nat) : ∀ k p, boxes w p k = ∏ i ∈ Finset.range k, w (p + 1 + i) := by
  intro k
  induction k with
  | zero => intro p; rfl
  | succ k ih =>
    intro p
    rw [boxes, ih, Finset.prod_range_succ', mul_comm]
    congr 1
    exact Finset.prod_congr rfl fun i _ => by congr 1; omega

theorem stems_eq (w : Nat → Nat) : ∀ k p, stems w p k = ∑ j ∈ Finset.range k, boxes w p (j + 1) := by
  intro k
  induction k with
  | zero => intro p; rfl
  | succ k ih =>
    intro p
    rw [stems, ih, Finset.sum_range_succ', mul_add, Finset.mul_sum, mul_one, add_comm]
    congr 1
    simp [boxes]

theorem vwr_inv {α : Type} {v v' : Vec α} {i : Nat} {x : α} (e : v.wr i x = .ok v') : i < v.size ∧ v' = v.set i x := by
  unfold Vec.wr at e
  split at e
  · exact ⟨by assumption, by cases e; rfl⟩
  · cases e

/-- `v` holds values of the first `p` nodes within their ranges, and 0 for the root -/
def Within (Mus : List (MuLimit D)) (p : Nat) (v : Vec Int) : Prop :=
  v.get 0 = 0 ∧ ∀ i m, 1 ≤ i → i ≤ p → Mus[i]? = some m → m.l ≤ v.get i ∧ v.get i ≤ m.u

theorem leafC_full {v : Vec Int} {ret : Option D} : ∀ (es : List (OmegaLimit D)) (sum : D) {k : Nat} {r : Option D},
    (∀ e ∈ es, v.get e.i - v.get e.j ≤ e.u) → leafC imax v ret es sum = .ok (k, r) → es.length ≤ k := by
  intro es
  induction es with
  | nil => intro sum k r _ e; exact Nat.zero_le _
  | cons e es ih =>
    intro sum k r hf h
    unfold leafC at h
    obtain ⟨a, e1, h⟩ := bind_ok h
    obtain ⟨b, e2, h⟩ := bind_ok h
    obtain ⟨x, e3, h⟩ := bind_ok h
    have ha := (Flow.vrd_inv e1).2
    have hb := (Flow.vrd_inv e2).2
    have hx : x = v.get e.i - v.get e.j := by
      unfold ck at e3
      split at e3
      · cases e3; rw [ha, hb]
      · cases e3
    split at h
    · have := hf e List.mem_cons_self
      omega
    · obtain ⟨y, -, h⟩ := bind_ok h
      obtain ⟨⟨k', r'⟩, e4, h⟩ := bind_ok h
      cases h
      exact Nat.succ_le_succ (ih _ (fun e he => hf e (List.mem_cons_of_mem _ he)) e4)

theorem dfsC_count {n lo : Nat} {Mus : List (MuLimit D)} {es : List (OmegaLimit D)} {w : Nat → Nat}
    (hw : ∀ i m, Mus[i]? = some m → w i = (m.u + 1 - m.l).toNat)
    (hlo : ∀ (v : Vec Int) (ret : Option D) (sum : D) (k : Nat) (r : Option D), Within Mus n v → leafC imax v ret es sum = .ok (k, r) → lo ≤ k) :
    ∀ (k p : Nat) (sum : D) (c c' : Nat) (v v' : Vec Int) (ret ret' : Option D), p + k = n → Within Mus p v →
    dfsC imax fuel Mus es k p sum (c, v, ret) = .ok (c', v', ret') →
    v'.size = v.size ∧ (∀ i ≤ p, v'.get i = v.get i) ∧
    c + stems w p k + boxes w p k * lo ≤ c' ∧ c' ≤ c + stems w p k + boxes w p k * es.length := by
  intro k
  induction k with
  | zero =>
    intro p sum c c' v v' ret ret' hp hin h
    unfold dfsC at h
    obtain ⟨⟨k', r'⟩, e1, h⟩ := bind_ok h
    cases h
    have hle := leafC_count _ _ e1
    have := hlo _ _ _ _ _ (by subst hp; exact hin) e1
    exact ⟨rfl, fun _ _ => rfl, by simp [stems, boxes]; exact this, by simp [stems, boxes]; exact hle⟩
  | succ k ih =>
    intro p sum c c' v v' ret ret' hp hin h
    unfold dfsC at h
    obtain ⟨m, e1, h⟩ := bind_ok h
    obtain ⟨v0, e2, h⟩ := bind_ok h
    obtain ⟨hs, rfl⟩ := vwr_inv e2
    have hmem : Mus[p + 1]? = some m := by
      unfold listRd at e1
      split at e1
      · rename_i h; cases e1; exact h
      · cases e1
    have hm := hw _ _ hmem
    have loop : ∀ (f c c' : Nat) (v v' : Vec Int) (ret ret' : Option D), Within Mus p v → m.l ≤ v.get (p + 1) → whileLoop
        (fun st : Nat × Vec Int × Option D => do
          let i ← st.2.1.rd (p + 1)
          .ok (decide (i ≤ m.u)))
        (fun st => do
          let i ← st.2.1.rd (p + 1)
          let y ← m.fn i
          let st ← dfsC imax fuel Mus es k (p + 1) (sum + y) (st.1 + 1, st.2)
          let i ← st.2.1.rd (p + 1)
          let i' ← ck imax (i + 1)
          let v ← st.2.1.wr (p + 1) i'
          .ok (st.1, v, st.2.2)) f (c, v, ret) = .ok (c', v', ret') →
        v'.size = v.size ∧ (∀ i ≤ p, v'.get i = v.get i) ∧
        c + (m.u + 1 - v.get (p + 1)).toNat * (1 + stems w (p + 1) k) +
          (m.u + 1 - v.get (p + 1)).toNat * boxes w (p + 1) k * lo ≤ c' ∧
        c' ≤ c + (m.u + 1 - v.get (p + 1)).toNat * (1 + stems w (p + 1) k) +
          (m.u + 1 - v.get (p + 1)).toNat * boxes w (p + 1) k * es.length := by
      intro f
      induction f with
      | zero => intro c c' v v' ret ret' _ _ h; cases h
      | succ f ihf =>
        intro c c' v v' ret ret' hin hl h
        unfold whileLoop at h
        obtain ⟨b, e3, h⟩ := bind_ok h
        obtain ⟨i, e4, e3⟩ := bind_ok e3
        obtain ⟨hi, rfl⟩ := Flow.vrd_inv e4
        cases e3
        split at h
        · rename_i hle
          have hle : v.get (p + 1) ≤ m.u := of_decide_eq_true hle
          obtain ⟨⟨c1, v1, r1⟩, e5, h⟩ := bind_ok h
          obtain ⟨i2, e6, e5⟩ := bind_ok e5
          obtain ⟨y, -, e5⟩ := bind_ok e5
          obtain ⟨⟨c2, v2, r2⟩, e7, e5⟩ := bind_ok e5
          obtain ⟨i3, e8, e5⟩ := bind_ok e5
          obtain ⟨i4, e9, e5⟩ := bind_ok e5
          obtain ⟨v3, e10, e5⟩ := bind_ok e5
          cases e5
          obtain ⟨-, rfl⟩ := Flow.vrd_inv e8
          obtain ⟨hs3, rfl⟩ := vwr_inv e10
          have h4 : i4 = v2.get (p + 1) + 1 := by
            unfold ck at e9
            split at e9
            · cases e9; rfl
            · cases e9
          have hin1 : Within Mus (p + 1) v := by
            refine ⟨hin.1, fun i m' h1 h2 h3 => ?_⟩
            rcases Nat.lt_or_ge p i with h4 | h4
            · obtain rfl : i = p + 1 := by omega
              rw [hmem] at h3
              cases h3
              exact ⟨hl, hle⟩
            · exact hin.2 i m' h1 h4 h3
          obtain ⟨q1, q2, q3, q4⟩ := ih _ _ _ _ _ _ _ _ (by omega) hin1 e7
          have h5 := q2 (p + 1) le_rfl
          have hget : (v2.set (p + 1) i4).get (p + 1) = v.get (p + 1) + 1 := by
            rw [Vec.set_get_self, h4, h5]
          have hin2 : Within Mus p (v2.set (p + 1) i4) := by
            refine ⟨?_, fun i m' h1 h2 h3 => ?_⟩
            · rw [Vec.set_get_ne _ _ (by omega), q2 0 (by omega)]; exact hin.1
            · rw [Vec.set_get_ne _ _ (by omega), q2 i (by omega)]; exact hin.2 i m' h1 h2 h3
          obtain ⟨s1, s2, s3, s4⟩ := ihf _ _ _ _ _ _ hin2 (by rw [hget]; omega) h
          rw [hget] at s3 s4
          obtain ⟨t, ht⟩ : ∃ t : Nat, (m.u + 1 - v.get (p + 1)).toNat = t + 1 :=
            ⟨(m.u - v.get (p + 1)).toNat, by omega⟩
          have ht' : (m.u + 1 - (v.get (p + 1) + 1)).toNat = t := by omega
          rw [ht'] at s3 s4
          rw [ht]
          refine ⟨?_, ?_, ?_, ?_⟩
          · rw [s1, Vec.set_size, q1]
          · intro i hip
            rw [s2 i hip, Vec.set_get_ne _ _ (by omega), q2 i (by omega)]
          · have := add_mul t 1 (1 + stems w (p + 1) k)
            have h7 : (t + 1) * boxes w (p + 1) k * lo = t * boxes w (p + 1) k * lo + boxes w (p + 1) k * lo := by ring
            linarith
          · have := add_mul t 1 (1 + stems w (p + 1) k)
            have h7 : (t + 1) * boxes w (p + 1) k * es.length = t * boxes w (p + 1) k * es.length + boxes w (p + 1) k * es.length := by ring
            linarith
        · rename_i hle
          have hle : ¬ v.get (p + 1) ≤ m.u := fun h => hle (decide_eq_true h)
          cases h
          have : (m.u + 1 - v.get (p + 1)).toNat = 0 := by omega
          rw [this]
          exact ⟨rfl, fun _ _ => rfl, by simp, by simp⟩
    have hin0 : Within Mus p (v.set (p + 1) m.l) := by
      refine ⟨?_, fun i m' h1 h2 h3 => ?_⟩
      · rw [Vec.set_get_ne _ _ (by omega)]; exact hin.1
      · rw [Vec.set_get_ne _ _ (by omega)]; exact hin.2 i m' h1 h2 h3
    obtain ⟨s1, s2, s3, s4⟩ := loop _ _ _ _ _ _ _ hin0 (by rw [Vec.set_get_self]) h
    rw [Vec.set_get_self, ← hm] at s3 s4
    refine ⟨?_, ?_, s3, s4⟩
    · rw [s1, Vec.set_size]
    · intro i hip
      rw [s2 i hip, Vec.set_get_ne _ _ (by omega)]

theorem preAllC_count : ∀ (es : List (OmegaLimit D)) {k : Nat} {es' : List (OmegaLimit D)},
    (∀ e ∈ es, e.l ≤ e.u) → preAllC imax fuel es = .ok (k, es') →
    es'.map (fun e => (e.i, e.j, e.u)) = es.map (fun e => (e.i, e.j, e.u)) ∧ k ≤ 2 * (es.map fun e => (e.u - e.l).toNat.size).sum := by
  intro es
  induction es with
  | nil => intro k es' _ h; cases h; exact ⟨rfl, by simp⟩
  | cons e es ih =>
    intro k es' hle h
    unfold preAllC at h
    obtain ⟨⟨c, e'⟩, e1, h⟩ := bind_ok h
    obtain ⟨⟨k', es1⟩, e2, h⟩ := bind_ok h
    cases h
    obtain ⟨h1, h2⟩ := ih (fun e he => hle e (List.mem_cons_of_mem _ he)) e2
    have h3 := hle e List.mem_cons_self
    have h4 : Short (e.u - e.l).toNat.size e.l e.u := by
      refine ⟨h3, ?_⟩
      have := Nat.lt_size_self (e.u - e.l).toNat
      zify at this
      rw [Int.toNat_of_nonneg (by omega)] at this
      exact this
    have h5 := (preProcessingC_light h4 e1).evals
    have h6 : (e'.i, e'.j, e'.u) = (e.i, e.j, e.u) := by
      unfold OmegaLimit.preProcessingC at e1
      obtain ⟨⟨k, x⟩, -, e1⟩ := bind_ok e1
      cases e1
      rfl
    refine ⟨by simp only [List.map_cons, h1, h6], ?_⟩
    simp only [List.map_cons, List.sum_cons]
    omega

theorem bfSolveC_count {n : Nat} {Mus : List (MuLimit D)} {es : List (OmegaLimit D)} {w : Nat → Nat} {k : Nat} {r : Option D}
    (hw : ∀ i m, Mus[i]? = some m → w i = (m.u + 1 - m.l).toNat) (hle : ∀ e ∈ es, e.l ≤ e.u)
    (h : bfSolveC imax fuel n Mus es = .ok (k, r)) :
    stems w 0 n ≤ k ∧ k ≤ stems w 0 n + boxes w 0 n * es.length + 2 * (es.map fun e => (e.u - e.l).toNat.size).sum ∧
    ((∀ v : Vec Int, Within Mus n v → ∀ e ∈ es, v.get e.i - v.get e.j ≤ e.u) → stems w 0 n + boxes w 0 n * es.length ≤ k) := by
  unfold bfSolveC at h
  obtain ⟨⟨c, es'⟩, e1, h⟩ := bind_ok h
  obtain ⟨⟨c', v', r'⟩, e2, h⟩ := bind_ok h
  cases h
  obtain ⟨h1, h2⟩ := preAllC_count es hle e1
  have hlen : es'.length = es.length := by simpa using congrArg List.length h1
  have hin : Within Mus 0 (Vec.replicate (n + 1) 0) := ⟨rfl, fun i m h1 h2 => by omega⟩
  obtain ⟨-, -, h3, h4⟩ := dfsC_count (n := n) (lo := 0) hw (fun _ _ _ _ _ _ _ => Nat.zero_le _) _ _ _ _ _ _ _ _ _ (by omega) hin e2
  rw [hlen] at h4
  refine ⟨by omega, by omega, fun hf => ?_⟩
  obtain ⟨-, -, h5, -⟩ := dfsC_count (n := n) (lo := es'.length) hw (fun v ret sum k r hv => leafC_full _ _ fun e' he' => by
    have h6 : (e'.i, e'.j, e'.u) ∈ es.map (fun e => (e.i, e.j, e.u)) := h1 ▸ List.mem_map_of_mem he'
    obtain ⟨e, he, h7⟩ := List.mem_map.1 h6
    simp only [Prod.mk.injEq] at h7
    rw [← h7.1, ← h7.2.1, ← h7.2.2]
    exact hf v hv e he) _ _ _ _ _ _ _ _ _ (by omega) hin e2
  rw [hlen] at h5
  omega

/-- with at least two values at most per node, the partial assignments are at most twice the assignments of a full box -/
theorem stems_le {w : Nat → Nat} {U n : Nat} (hU : 2 ≤ U) (hw : ∀ i, 1 ≤ i → i ≤ n → w i ≤ U) : ∀ k p, p + k ≤ n →
    boxes w p k ≤ U ^ k ∧ stems w p k + 2 ≤ 2 * U ^ k := by
  intro k
  induction k with
  | zero => intro p _; simp [boxes, stems]
  | succ k ih =>
    intro p hp
    obtain ⟨h1, h2⟩ := ih (p + 1) (by omega)
    have h3 := hw (p + 1) (by omega) (by omega)
    rw [boxes, stems, pow_succ']
    refine ⟨Nat.mul_le_mul h3 h1, ?_⟩
    have h4 := Nat.mul_le_mul h3 (le_refl (1 + stems w (p + 1) k))
    nlinarith

end Oracle
end AHO
