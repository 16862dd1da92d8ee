import Verif.Proof.Sim
import Verif.Proof.FlowPhase
import Verif.Proof.Define
import Mathlib.Data.Finset.Image
import Mathlib.Algebra.BigOperators.Ring.Finset
/-!
# Duality: from an optimal circulation to optimal potentials, and `Flow::min_cost`
-/

namespace AHO.Flow
open AHO Spec LCT
set_option linter.unusedSectionVars false

variable {K : Type} [Field K] [LinearOrder K] [IsStrictOrderedRing K]
variable {net : Net K} {s : Flow K}

section penal
variable {N : Int} {M : K} {lo up : Int} {g : Int → K}

theorem penal_rev (hle : lo ≤ up) (x : Int) :
    penal M (-up) (-lo) (fun y => g (-y)) x = penal M lo up g (-x) := by
  unfold penal
  by_cases h1 : x < -up
  · rw [if_pos h1, if_neg (by omega), if_pos (by omega)]
    dsimp only
    rw [neg_neg]
    congr 2; push_cast; ring
  · rw [if_neg h1]
    by_cases h2 : -lo < x
    · rw [if_pos h2, if_pos (by omega)]
      dsimp only
      rw [neg_neg]
      congr 2; push_cast; ring
    · rw [if_neg h2, if_neg (by omega), if_neg (by omega)]

theorem lft_penal (hle : lo ≤ up) (s : Int) :
    lft N M lo up g s = penal M lo up g (cdiv s N) - penal M lo up g (cdiv s N - 1) := by
  unfold lft penal
  set c := cdiv s N
  by_cases h1 : c > up
  · rw [if_pos h1, if_neg (by omega), if_pos h1, if_neg (by omega)]
    by_cases h2 : up < c - 1
    · rw [if_pos h2]; push_cast; ring
    · rw [if_neg h2]
      have : c = up + 1 := by omega
      rw [this]; push_cast; ring_nf
  · rw [if_neg h1]
    by_cases h2 : c - 1 < lo
    · rw [if_pos h2, if_pos h2]
      by_cases h3 : c < lo
      · rw [if_pos h3]; push_cast; ring
      · rw [if_neg h3, if_neg (by omega)]
        have : c = lo := by omega
        rw [this]; push_cast; ring
    · rw [if_neg h2, if_neg (by omega), if_neg (by omega), if_neg (by omega), if_neg (by omega)]

theorem cdiv_one (s : Int) : cdiv s 1 = s := by simp [cdiv]

theorem slope_mono (h : EdgeOK N M lo up g) {x y : Int} (hxy : x ≤ y) :
    penal M lo up g x - penal M lo up g (x - 1) ≤ penal M lo up g y - penal M lo up g (y - 1) := by
  have h1 : EdgeOK 1 M lo up g := { h with npos := by norm_num }
  have := lft_mono h1 hxy
  rwa [lft_penal h.le, lft_penal h.le, cdiv_one, cdiv_one] at this

theorem penal_min (h : EdgeOK N M lo up g) {p : Int} {f : K}
    (h1 : penal M lo up g p - penal M lo up g (p - 1) ≤ f)
    (h2 : f ≤ penal M lo up g (p + 1) - penal M lo up g p) (x : Int) :
    penal M lo up g p - f * (p : K) ≤ penal M lo up g x - f * (x : K) := by
  have hup : ∀ k : Nat, penal M lo up g p - f * (p : K) ≤ penal M lo up g (p + k) - f * ((p + k : Int) : K) := by
    intro k
    induction k with
    | zero => simp
    | succ k ih =>
      have := slope_mono h (show p + 1 ≤ p + k + 1 by omega)
      rw [add_sub_cancel_right, add_sub_cancel_right] at this
      push_cast at ih ⊢
      rw [← add_assoc]
      linarith
  have hdn : ∀ k : Nat, penal M lo up g p - f * (p : K) ≤ penal M lo up g (p - k) - f * ((p - k : Int) : K) := by
    intro k
    induction k with
    | zero => simp
    | succ k ih =>
      have := slope_mono h (show p - k ≤ p by omega)
      push_cast at ih ⊢
      rw [← sub_sub]
      linarith
  rcases le_total p x with hpx | hpx
  · have := hup (x - p).toNat
    rwa [show p + ((x - p).toNat : Int) = x by omega] at this
  · have := hdn (p - x).toNat
    rwa [show p - ((p - x).toNat : Int) = x by omega] at this

theorem penal_ge (hle : lo ≤ up) {f m : K} (h1 : -M ≤ f) (h2 : f ≤ M)
    (hm : ∀ y, lo ≤ y → y ≤ up → m ≤ g y - f * (y : K)) (x : Int) : m ≤ penal M lo up g x - f * (x : K) := by
  unfold penal
  by_cases c1 : x < lo
  · rw [if_pos c1]
    have := hm lo le_rfl hle
    have h3 : (0 : K) ≤ ((lo - x : Int) : K) := by exact_mod_cast (show (0 : Int) ≤ lo - x by omega)
    have h4 : 0 ≤ (M + f) * ((lo - x : Int) : K) := mul_nonneg (by linarith) h3
    push_cast at *
    linarith
  · rw [if_neg c1]
    by_cases c2 : up < x
    · rw [if_pos c2]
      have := hm up hle le_rfl
      have h3 : (0 : K) ≤ ((x - up : Int) : K) := by exact_mod_cast (show (0 : Int) ≤ x - up by omega)
      have h4 : 0 ≤ (M - f) * ((x - up : Int) : K) := mul_nonneg (by linarith) h3
      push_cast at *
      linarith
    · rw [if_neg c2]
      exact hm x (by omega) (by omega)

end penal

/-- Rounding the scaled potentials. -/
theorem exists_round' (n : Nat) (pot : Nat → Int) :
    ∃ θ : Nat, θ < 2 * (n + 1) ∧ ∀ i j, i ≤ n → j ≤ n → (pot i + θ) / (2 * ((n : Int) + 1)) - (pot j + θ) / (2 * ((n : Int) + 1)) ≤
      cdiv (pot i - pot j - 1) (2 * ((n : Int) + 1)) := by
  set N : Int := 2 * ((n : Int) + 1) with hN
  have hNp : 0 < N := by omega
  obtain ⟨θ, h1, h2⟩ := Finset.exists_mem_notMem_of_card_lt_card
    (s := (Finset.range (n + 1)).image (fun v => ((-pot v - 1) % N).toNat)) (t := Finset.range (2 * (n + 1)))
    (by
      refine (Finset.card_image_le).trans_lt ?_
      simp)
  refine ⟨θ, Finset.mem_range.1 h1, fun i j hi hj => ?_⟩
  have key : ∀ v, v ≤ n → (pot v + θ) % N < N - 1 := by
    intro v hv
    have hlt := Int.emod_lt_of_pos (pot v + θ) hNp
    by_contra hc
    have he : (pot v + θ) % N = N - 1 := by omega
    apply h2
    rw [Finset.mem_image]
    refine ⟨v, by simp; omega, ?_⟩
    have h3 := Int.mul_ediv_add_emod (pot v + θ) N
    have hθ : (θ : Int) < N := by rw [Finset.mem_range] at h1; omega
    have : -pot v - 1 = θ + N * (-((pot v + θ) / N) - 1) := by
      rw [he] at h3
      rw [Int.mul_sub, Int.mul_neg]
      omega
    rw [this, Int.add_mul_emod_self_left, Int.emod_eq_of_lt (by omega) hθ]
    simp
  have k1 := key j hj
  have k2 := Int.emod_nonneg (pot i + θ) (show N ≠ 0 by omega)
  have d1 := Int.mul_ediv_add_emod (pot i + θ) N
  have d2 := Int.mul_ediv_add_emod (pot j + θ) N
  obtain ⟨b1, b2⟩ := cdiv_bounds (pot i - pot j - 1) N hNp
  by_contra hc
  have h3 : N * (cdiv (pot i - pot j - 1) N) ≤ N * ((pot i + θ) / N - (pot j + θ) / N - 1) :=
    Int.mul_le_mul_of_nonneg_left (by omega) hNp.le
  rw [Int.mul_sub, Int.mul_sub] at h3
  omega

theorem exists_round (n : Nat) (pot : Nat → Int) :
    ∃ π : Nat → Int, ∀ i j, i ≤ n → j ≤ n → π i - π j ≤ cdiv (pot i - pot j - 1) (2 * ((n : Int) + 1)) := by
  obtain ⟨θ, -, h⟩ := exists_round' n pot
  exact ⟨fun v => (pot v + θ) / (2 * ((n : Int) + 1)), h⟩

/-- cost of edge `e`, penalised outside its range -/
def Net.pen (net : Net K) (e : Nat) (x : Int) : K := penal net.M (net.lo e) (net.up e) (net.g e) x

theorem Net.OK.pen_x (ok : net.OK) {e} (he : e < net.E) (x : Int) : net.pen (e ^^^ 1) x = net.pen e (-x) := by
  unfold Net.pen
  rw [ok.lo_x e he, ok.up_x e he, ok.g_x e he, penal_rev (ok.edge e he).le]

/-- A circulation sees no difference of potentials. -/
theorem circ_sum (ok : net.OK) {f : Nat → K} (ha : ∀ e, e < net.E → f (e ^^^ 1) = -f e)
    (hc : ∀ v, v ≤ net.n → excess net f v = 0) (π : Nat → Int) :
    ∑ e ∈ Finset.range net.E, f e * ((π (net.src e) - π (net.dst e) : Int) : K) = 0 := by
  have h1 : ∑ e ∈ Finset.range net.E, f e * (π (net.src e) : K) = 0 := by
    rw [← Finset.sum_fiberwise_of_maps_to (s := Finset.range net.E) (t := Finset.range (net.n + 1)) (g := net.src)
      (fun e he => by have := ok.src_le e (Finset.mem_range.1 he); rw [Finset.mem_range]; omega)]
    apply Finset.sum_eq_zero
    intro v hv
    have : ∑ e ∈ (Finset.range net.E).filter (fun e => net.src e = v), f e * (π (net.src e) : K) =
        ∑ e ∈ (Finset.range net.E).filter (fun e => net.src e = v), f e * (π v : K) :=
      Finset.sum_congr rfl fun e he => by rw [(Finset.mem_filter.1 he).2]
    rw [this, ← Finset.sum_mul]
    have := hc v (by rw [Finset.mem_range] at hv; omega)
    unfold excess at this
    rw [this, zero_mul]
  have h2 : ∑ e ∈ Finset.range net.E, f e * (π (net.dst e) : K) = 0 := by
    have : ∑ e ∈ Finset.range net.E, f e * (π (net.dst e) : K) =
        ∑ e ∈ Finset.range net.E, -(f e * (π (net.src e) : K)) := by
      refine Finset.sum_nbij' (fun e => e ^^^ 1) (fun e => e ^^^ 1) ?_ ?_ (by simp) (by simp) ?_
      · intro e he; rw [Finset.mem_range] at he ⊢; exact ok.x_lt e he
      · intro e he; rw [Finset.mem_range] at he ⊢; exact ok.x_lt e he
      · intro e he
        rw [Finset.mem_range] at he
        rw [ha e he, ok.src_x e he]; ring
    rw [this, Finset.sum_neg_distrib, h1, neg_zero]
  have h3 : ∀ e, f e * ((π (net.src e) - π (net.dst e) : Int) : K) =
      f e * (π (net.src e) : K) - f e * (π (net.dst e) : K) := by
    intro e; push_cast; ring
  simp only [h3]
  rw [Finset.sum_sub_distrib, h1, h2, sub_zero]

/-- Potentials for which every edge is in its optimum. -/
theorem exists_opt (ok : net.OK) {f : Nat → K} {pot : Nat → Int} (ha : ∀ e, e < net.E → f (e ^^^ 1) = -f e)
    (ho : ∀ e, e < net.E → net.L e (pot (net.src e) - pot (net.dst e) - 1) ≤ f e) :
    ∃ π : Nat → Int, ∀ e, e < net.E → ∀ x,
      net.pen e (π (net.src e) - π (net.dst e)) - f e * ((π (net.src e) - π (net.dst e) : Int) : K) ≤
        net.pen e x - f e * (x : K) := by
  obtain ⟨π, hπ⟩ := exists_round net.n pot
  have key : ∀ e, e < net.E → net.pen e (π (net.src e) - π (net.dst e)) -
      net.pen e (π (net.src e) - π (net.dst e) - 1) ≤ f e := by
    intro e he
    refine le_trans ?_ (ho e he)
    unfold Net.L Net.pen
    rw [lft_penal (ok.edge e he).le]
    exact slope_mono (ok.edge e he) (hπ _ _ (ok.src_le e he) (ok.dst_le e he))
  refine ⟨π, fun e he x => penal_min (ok.edge e he) (key e he) ?_ x⟩
  have h1 := key _ (ok.x_lt e he)
  rw [ok.src_x e he, ok.dst_x e he, ok.pen_x he, ok.pen_x he, ha e he] at h1
  rw [show -(π (net.dst e) - π (net.src e)) = π (net.src e) - π (net.dst e) by ring,
    show -(π (net.dst e) - π (net.src e) - 1) = π (net.src e) - π (net.dst e) + 1 by ring] at h1
  unfold Net.pen at h1
  linarith

/-- The final loop of `min_cost`. -/
theorem minLoop (ok : net.OK) {imax : Int} {fuel k : Nat} (st : Static net s) (hk : k < fuel)
    (hfit : ∀ e, e < net.E → Fits imax k (net.lo e) (net.up e)) :
    ∃ (m : Nat → K) (s' : Flow K), forRange (addEdgeMin imax fuel) 0 net.E (0, s) =
        .ok (∑ e ∈ Finset.range net.E, m e, s') ∧
      ∀ e, e < net.E → (∃ p, net.lo e ≤ p ∧ p ≤ net.up e ∧ m e = net.g e p - s.flows.get e * (p : K)) ∧
        ∀ x, net.lo e ≤ x → x ≤ net.up e → m e ≤ net.g e x - s.flows.get e * (x : K) := by
  let ed : Nat → OmegaLimit K := fun e => { s.edges.get e with
    fn := fun w => do let v ← (s.edges.get e).fn w; .ok (v - s.flows.get e * (w : K)) }
  have hmin : ∀ e, ∃ m, e < net.E → (ed e).minimum imax fuel = .ok m ∧
      (∃ p, net.lo e ≤ p ∧ p ≤ net.up e ∧ m = net.g e p - s.flows.get e * (p : K)) ∧
        ∀ x, net.lo e ≤ x → x ≤ net.up e → m ≤ net.g e x - s.flows.get e * (x : K) := by
    intro e
    by_cases he : e < net.E
    · have hl : (ed e).l = net.lo e := st.el e he
      have hu : (ed e).u = net.up e := st.eu e he
      obtain ⟨p, p1, p2, p3, p4⟩ := minimum_spec (imax := imax) (e := ed e) (fuel := fuel) (k := k)
        (g := fun x => net.g e x - s.flows.get e * (x : K)) hk (by rw [hl, hu]; exact hfit e he)
        (by
          intro x h1 h2
          rw [hl] at h1; rw [hu] at h2
          show ((s.edges.get e).fn x >>= _) = _
          rw [st.ef e he x h1 h2, ok_bind])
        (by rw [hl, hu]; exact convex_sub_linear (ok.edge e he).conv _)
      rw [hl] at p2 p4
      rw [hu] at p3 p4
      exact ⟨_, fun _ => ⟨p1, ⟨p, p2, p3, rfl⟩, p4⟩⟩
    · exact ⟨0, fun h => absurd h he⟩
  choose m hm using hmin
  obtain ⟨⟨a, s'⟩, e1, e2⟩ := forRange_ok (body := addEdgeMin imax fuel) (hi := net.E)
    (Inv := fun (as : K × Flow K) i => as.1 = ∑ e ∈ Finset.range i, m e ∧ as.2.edges.size = net.E ∧
      as.2.flows = s.flows ∧ ∀ e, i ≤ e → as.2.edges.get e = s.edges.get e)
    (by
      rintro ⟨a, s1⟩ i ⟨h1, h2, h3, h4⟩ hi
      dsimp only at h1 h2 h3 h4
      unfold addEdgeMin
      dsimp only
      rw [Vec.rd_ok (by omega), ok_bind, h3, Vec.rd_ok (by rw [st.flsz]; exact hi), ok_bind, h4 i le_rfl,
        Vec.wr_ok _ (by omega), ok_bind]
      have := (hm i hi).1
      simp only [ed] at this
      rw [this, ok_bind]
      refine ⟨_, rfl, ?_, h2, rfl, fun e he => ?_⟩
      · show a + m i = _
        rw [Finset.sum_range_succ, h1]
      · show (s1.edges.set i _).get e = _
        rw [Vec.set_get_ne _ _ (by omega), h4 e (by omega)])
    net.E 0 (0, s) ⟨by simp, st.esz, rfl, fun _ _ => rfl⟩ (by omega)
  refine ⟨m, s', ?_, fun e he => (hm e he).2⟩
  rw [e1]
  have := e2.1
  dsimp only at this
  rw [this]

variable {R : Type} [Zero R] [One R] [Add R] [Sub R] [Neg R] [Mul R] [Div R] [IntCast R] [BEq R] [LT R] [LE R]
  [DecidableLT R] [DecidableLE R]

theorem forRange_rel {σ τ : Type} {body : σ → Nat → Res σ} {body' : τ → Nat → Res τ} (Rel : σ → τ → Nat → Prop) {hi : Nat}
    (step : ∀ s t i s', Rel s t i → i < hi → body s i = .ok s' → ∃ t', body' t i = .ok t' ∧ Rel s' t' (i + 1)) :
    ∀ (cnt lo : Nat) (s : σ) (t : τ) (s' : σ), Rel s t lo → lo + cnt = hi → forRange body lo cnt s = .ok s' →
      ∃ t', forRange body' lo cnt t = .ok t' ∧ Rel s' t' hi := by
  intro cnt
  induction cnt with
  | zero =>
    intro lo s t s' h hh he
    cases he
    exact ⟨t, rfl, by rw [← hh]; exact h⟩
  | succ cnt ih =>
    intro lo s t s' h hh he
    unfold forRange at he ⊢
    cases hb : body s lo with
    | error e => rw [hb] at he; cases he
    | ok s1 =>
      rw [hb, ok_bind] at he
      obtain ⟨t1, e1, e2⟩ := step s t lo s1 h (by omega) hb
      rw [e1, ok_bind]
      exact ih (lo + 1) s1 t1 s' e2 (by omega) he

/-- The final loop over `R`. -/
theorem minLoop_simE {E : FEmb K R} {ed : Vec (OmegaLimit R)} {imax W : Int} {fuel : Nat} {b : K} (st : Static net s)
    (hsz : ed.size = net.E)
    (hed : ∀ e, e < net.E → LR E b (s.edges.get e) (ed.get e)) (hU : ∀ e, e < net.E → s.flows.get e ∈ E.U)
    (hM : 0 ≤ net.M) (hb : ∀ e, e < net.E → |s.flows.get e| ≤ net.M) (hW : 0 ≤ W) (hb0 : 0 ≤ b)
    (hr : ∀ e, e < net.E → -W ≤ net.lo e ∧ net.lo e ≤ net.up e ∧ net.up e ≤ W)
    (hI : ∀ x ∈ E.U, |x| ≤ net.E * (b + net.M * W) → E.I x) (hIi : ∀ k : Int, |k| ≤ W → E.I (k : K))
    {a : K} {s' : Flow K} (hK : forRange (addEdgeMin imax fuel) 0 net.E (0, s) = .ok (a, s')) :
    ∃ t', forRange (addEdgeMin imax fuel) 0 net.E ((0 : R), E.F ed s) = .ok (E.e a, t') ∧ a ∈ E.U ∧
      |a| ≤ net.E * (b + net.M * W) := by
  have hW' : (0 : K) ≤ W := by exact_mod_cast hW
  have hB : 0 ≤ b + net.M * W := add_nonneg hb0 (mul_nonneg hM hW')
  obtain ⟨⟨aR, t'⟩, e1, e2⟩ := forRange_rel (body := addEdgeMin imax fuel) (body' := addEdgeMin imax fuel) (hi := net.E)
    (fun (p : K × Flow K) (q : R × Flow R) i => q.1 = E.e p.1 ∧ p.1 ∈ E.U ∧ |p.1| ≤ i * (b + net.M * W) ∧
      p.2.flows = s.flows ∧ q.2.flows = s.flows.map E.e ∧ p.2.edges.size = net.E ∧ q.2.edges.size = net.E ∧
      ∀ e, i ≤ e → p.2.edges.get e = s.edges.get e ∧ q.2.edges.get e = ed.get e)
    (by
      rintro ⟨a, s1⟩ ⟨aR, t1⟩ i ⟨a', s1'⟩ ⟨h1, h2, h3, h4, h5, h6, h7, h8⟩ hi hb1
      dsimp only at h1 h2 h3 h4 h5 h6 h7 h8
      unfold addEdgeMin at hb1 ⊢
      dsimp only at hb1 ⊢
      rw [Vec.rd_ok (by omega), ok_bind, h4, Vec.rd_ok (by rw [st.flsz]; exact hi), ok_bind, (h8 i le_rfl).1,
        Vec.wr_ok _ (by omega), ok_bind] at hb1
      rw [Vec.rd_ok (by omega), ok_bind, h5, Vec.map_rd, Vec.rd_ok (by rw [st.flsz]; exact hi), map_ok, ok_bind,
        (h8 i le_rfl).2, Vec.wr_ok _ (by omega), ok_bind]
      have hli := hr i hi
      have hL : LR E (b + net.M * W)
          { s.edges.get i with fn := fun w => do let v ← (s.edges.get i).fn w; .ok (v - s.flows.get i * (w : K)) }
          { ed.get i with fn := fun w => do let v ← (ed.get i).fn w; .ok (v - E.e (s.flows.get i) * (w : R)) } := by
        have hE1 : b + net.M * W ≤ net.E * (b + net.M * W) := by
          have : (1 : K) ≤ net.E := by exact_mod_cast (by omega : 1 ≤ net.E)
          nlinarith
        refine LR.of (hed i hi).l (hed i hi).u (hed i hi).i (hed i hi).j (fun v hv hb => hI v hv (hb.trans hE1)) fun w w1 w2 => ?_
        obtain ⟨v, p, q, r, t⟩ := (hed i hi).fn w w1 w2
        have w1' : net.lo i ≤ w := by rw [← st.el i hi]; exact w1
        have w2' : w ≤ net.up i := by rw [← st.eu i hi]; exact w2
        have hwW : |w| ≤ W := abs_le.2 ⟨by omega, by omega⟩
        have hwW' : |(w : K)| ≤ W := by exact_mod_cast hwW
        have hmU : s.flows.get i * (w : K) ∈ E.U := by
          rw [mul_comm, ← zsmul_eq_mul]; exact E.U.zsmul_mem (hU i hi) w
        have hmb : |s.flows.get i * (w : K)| ≤ net.M * W := by
          rw [abs_mul]; exact mul_le_mul (hb i hi) hwW' (abs_nonneg _) hM
        have hd : |v - s.flows.get i * (w : K)| ≤ b + net.M * W := (abs_sub _ _).trans (add_le_add t hmb)
        have hdU := E.U.sub_mem r hmU
        refine ⟨v - s.flows.get i * (w : K), ?_, ?_, hdU, hd⟩
        · dsimp only; rw [p, ok_bind]
        · dsimp only
          rw [q, ok_bind, ← E.mul _ _ (hU i hi) (hIi w hwW) (hI _ hmU (by linarith)), ← E.sub _ _ r (hI _ hdU (by linarith))]
      cases hm : OmegaLimit.minimum imax fuel { s.edges.get i with fn := fun w => do
          let v ← (s.edges.get i).fn w; .ok (v - s.flows.get i * (w : K)) } with
      | error e => rw [hm] at hb1; cases hb1
      | ok m =>
        rw [hm, ok_bind] at hb1
        cases hb1
        obtain ⟨m1, m2, m3⟩ := hL.minimum (by dsimp only; rw [st.el i hi, st.eu i hi]; exact hli.2.1) hm
        rw [m1, ok_bind]
        have haU := E.U.add_mem h2 m2
        have hab : |a + m| ≤ ((i + 1 : Nat) : K) * (b + net.M * W) := by
          push_cast
          rw [add_mul, one_mul]
          exact (abs_add_le _ _).trans (add_le_add h3 m3)
        have hiE : ((i + 1 : Nat) : K) ≤ net.E := by exact_mod_cast hi
        refine ⟨_, rfl, ?_, haU, hab, rfl, rfl, h6, h7, fun e he => ⟨?_, ?_⟩⟩
        · dsimp only
          rw [h1, E.plus _ _ h2 (hI _ haU (hab.trans (mul_le_mul_of_nonneg_right hiE hB)))]
        · show (s1.edges.set i _).get e = _
          rw [Vec.set_get_ne _ _ (by omega), (h8 e (by omega)).1]
        · show (t1.edges.set i _).get e = _
          rw [Vec.set_get_ne _ _ (by omega), (h8 e (by omega)).2])
    net.E 0 (0, s) (0, E.F ed s) (a, s') ⟨E.zero.symm, E.U.zero_mem, by simp, rfl, rfl, st.esz, hsz, fun _ _ => ⟨rfl, rfl⟩⟩
    (by omega) hK
  have := e2.1
  dsimp only at this
  subst this
  exact ⟨t', e1, e2.2.1, e2.2.2.1⟩

theorem sum_double (a : Nat → K) (m : Nat) :
    ∑ e ∈ Finset.range (2 * m), a e = ∑ k ∈ Finset.range m, (a (2 * k) + a (2 * k + 1)) := by
  induction m with
  | zero => simp
  | succ m ih =>
    rw [show 2 * (m + 1) = 2 * m + 1 + 1 by ring, Finset.sum_range_succ, Finset.sum_range_succ, ih,
      Finset.sum_range_succ]
    ring

theorem two_xor (k : Nat) : (2 * k) ^^^ 1 = 2 * k + 1 := by
  apply Nat.eq_of_testBit_eq
  intro i
  cases i with
  | zero => simp
  | succ i => simp [Nat.testBit_succ, Nat.xor_div_two, Nat.mul_add_div]

/-- total penalised cost of potentials -/
def Net.total (net : Net K) (m : Nat) (π : Nat → Int) : K :=
  ∑ k ∈ Finset.range m, net.pen (2 * k) (π (net.src (2 * k)) - π (net.dst (2 * k)))

theorem Net.OK.total_double (ok : net.OK) {m} (hE : net.E = 2 * m) (π : Nat → Int) :
    ∑ e ∈ Finset.range net.E, net.pen e (π (net.src e) - π (net.dst e)) = net.total m π * ((2 : Int) : K) := by
  rw [hE, sum_double, Net.total, Finset.sum_mul]
  refine Finset.sum_congr rfl fun k hk => ?_
  have he : 2 * k < net.E := by rw [hE]; rw [Finset.mem_range] at hk; omega
  rw [← two_xor, ok.pen_x he, ok.src_x _ he, ok.dst_x _ he, neg_sub]
  push_cast; ring

/-- `min_cost` after the phases: the least penalised cost over all integer potentials. -/
theorem PInv.minCost (ok : net.OK) {imax : Int} {fuel k m : Nat} (hE : net.E = 2 * m) {s0 : Flow K}
    (hph : Flow.phases imax fuel s0 = .ok s) {E : FEmb K R} {C : K} (P : PInv E C net 1 s) (hk : k < fuel)
    (hfit : ∀ e, e < net.E → Fits imax k (net.lo e) (net.up e)) :
    ∃ v s', Flow.minCost imax fuel s0 = .ok (v, s') ∧ (∃ π, v = net.total m π) ∧ ∀ π, v ≤ net.total m π := by
  obtain ⟨mm, s', e1, e2⟩ := minLoop ok P.st hk hfit
  have h2 : ((2 : Int) : K) ≠ 0 := by norm_num
  have h2p : (0 : K) < ((2 : Int) : K) := by norm_num
  have hlow : ∀ e, e < net.E → -net.M ≤ s.flows.get e := by
    intro e he
    have := P.bd _ (ok.x_lt e he)
    rw [P.anti e he] at this
    linarith
  have hge : ∀ π : Nat → Int, ∑ e ∈ Finset.range net.E, mm e ≤ net.total m π * ((2 : Int) : K) := by
    intro π
    rw [← ok.total_double hE, ← sub_zero (∑ e ∈ Finset.range net.E, net.pen e _),
      ← circ_sum ok P.anti P.circ π, ← Finset.sum_sub_distrib]
    refine Finset.sum_le_sum fun e he => ?_
    rw [Finset.mem_range] at he
    exact penal_ge (ok.edge e he).le (hlow e he) (P.bd e he) (e2 e he).2 _
  refine ⟨(∑ e ∈ Finset.range net.E, mm e) / ((2 : Int) : K), s', ?_, ?_, ?_⟩
  · unfold Flow.minCost
    rw [hph, ok_bind, P.st.esz, e1, ok_bind]
  · obtain ⟨π, hπ⟩ := exists_opt ok (f := s.flows.get) (pot := s.scaling.get) P.anti P.opt
    refine ⟨π, ?_⟩
    rw [div_eq_iff h2]
    refine le_antisymm (hge π) ?_
    rw [← ok.total_double hE, ← sub_zero (∑ e ∈ Finset.range net.E, net.pen e _),
      ← circ_sum ok P.anti P.circ π, ← Finset.sum_sub_distrib]
    refine Finset.sum_le_sum fun e he => ?_
    rw [Finset.mem_range] at he
    obtain ⟨p, p1, p2, p3⟩ := (e2 e he).1
    have := hπ e he p
    rw [p3]
    have hp : net.pen e p = net.g e p := by
      unfold Net.pen penal; rw [if_neg (by omega), if_neg (by omega)]
    rwa [hp] at this
  · intro π
    rw [div_le_iff₀ h2p]
    exact hge π

theorem Net.total_mem {U : AddSubgroup K} (ok : net.OK) {m : Nat} (hE : net.E = 2 * m) (hMU : net.M ∈ U)
    (gU : ∀ e, e < net.E → ∀ x, net.lo e ≤ x → x ≤ net.up e → net.g e x ∈ U) (π : Nat → Int) : net.total m π ∈ U := by
  have hz : ∀ k : Int, net.M * (k : K) ∈ U := by
    intro k
    rw [mul_comm, ← zsmul_eq_mul]
    exact U.zsmul_mem hMU k
  unfold Net.total
  refine sum_mem fun k hk => ?_
  rw [Finset.mem_range] at hk
  have he : 2 * k < net.E := by omega
  have hle := (ok.edge _ he).le
  unfold Net.pen penal
  split
  · exact U.add_mem (gU _ he _ le_rfl hle) (hz _)
  · split
    · exact U.add_mem (gU _ he _ hle le_rfl) (hz _)
    · exact gU _ he _ (by omega) (by omega)

/-- `min_cost` over `R`. -/
theorem PInv.minCost_simE {E : FEmb K R} {ed : Vec (OmegaLimit R)} {imax W : Int} {fuel : Nat} {b C : K}
    (ok : net.OK) {s0 : Flow K} {c : Int} (P : PInv E C net c s) (hph : Flow.phases imax fuel s0 = .ok s)
    (hphR : Flow.phases imax fuel (E.F ed s0) = .ok (E.F ed s)) (hsz : ed.size = net.E)
    (hed : ∀ e, e < net.E → LR E b (s.edges.get e) (ed.get e))
    (hM : 0 ≤ net.M) (hW : 0 ≤ W) (hb0 : 0 ≤ b) (hr : ∀ e, e < net.E → -W ≤ net.lo e ∧ net.up e ≤ W)
    (hI : ∀ x ∈ E.U, |x| ≤ net.E * (b + net.M * W) → E.I x) (hIi : ∀ k : Int, |k| ≤ W → E.I (k : K))
    (hI2 : E.I ((2 : Int) : K)) {v : K} {s' : Flow K} (hv : v ∈ E.U) (hK : Flow.minCost imax fuel s0 = .ok (v, s')) :
    ∃ t', Flow.minCost imax fuel (E.F ed s0) = .ok (E.e v, t') ∧ E.I v := by
  unfold Flow.minCost at hK ⊢
  rw [hph, ok_bind, P.st.esz] at hK
  rw [hphR, ok_bind, FEmb.F_edges, hsz]
  cases hf : forRange (addEdgeMin imax fuel) 0 net.E (0, s) with
  | error e => rw [hf] at hK; cases hK
  | ok as =>
    obtain ⟨a, s1⟩ := as
    rw [hf, ok_bind] at hK
    cases hK
    have hfb : ∀ e, e < net.E → |s.flows.get e| ≤ net.M := by
      intro e he
      have h1 := P.bd _ (ok.x_lt e he)
      rw [P.anti e he] at h1
      exact abs_le.2 ⟨by linarith, P.bd e he⟩
    obtain ⟨t', t1, t2, t3⟩ := minLoop_simE P.st hsz hed P.flU hM hfb hW hb0
      (fun e he => ⟨(hr e he).1, (ok.edge e he).le, (hr e he).2⟩) hI hIi hf
    rw [t1, ok_bind]
    have : |a / ((2 : Int) : K)| ≤ |a| := by
      rw [abs_div]
      refine div_le_self (abs_nonneg _) ?_
      norm_num
    have hex := hI _ hv (this.trans t3)
    refine ⟨t', ?_, hex⟩
    dsimp only
    rw [E.half a t2 hI2 hex]

end AHO.Flow
