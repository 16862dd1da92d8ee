import Verif.Proof.Dual
import Verif.Proof.Sim
import Mathlib.Data.Nat.Log
/-!
# The constructor of `Flow`
-/

namespace AHO.Flow
open AHO Spec LCT
set_option linter.unusedSectionVars false

variable {K : Type} [Field K] [LinearOrder K] [IsStrictOrderedRing K]

/-! ### `epsilon` -/

theorem epsilonLoop_spec {imax U : Int} {n : Nat} (hU : 0 ≤ U) (hn : (n : Int) + 1 ≤ imax) (t : Nat)
    (h1 : 2 * ((n : Int) + 1) * U ≤ 2 ^ t) (h2 : ∀ t', t' < t → (2 : Int) ^ t' < 2 * ((n : Int) + 1) * U)
    (hmax : (2 : Int) ^ t ≤ imax) (hn2 : 2 * ((n : Int) + 1) ≤ imax) :
    ∀ (d a fuel : Nat), a + d = t → d < fuel → epsilonLoop imax n U fuel (2 ^ a) = .ok (2 ^ t) := by
  intro d
  have hb : ∀ x, (do
      let n1 ← toInt imax (n + 1)
      let a ← ck imax (2 * n1)
      let b ← ck imax (a * U)
      .ok (decide (x < b)) : Res Bool) = .ok (decide (x < 2 * ((n : Int) + 1) * U)) := by
    intro x
    have h0 : 0 ≤ 2 * ((n : Int) + 1) * U := Int.mul_nonneg (by omega) hU
    rw [toInt, ck_ok (by omega) (by push_cast; omega), ok_bind, ck_ok (by push_cast; omega) (by push_cast; omega),
      ok_bind, ck_ok (by push_cast; omega) (by push_cast; omega), ok_bind]
    push_cast; rfl
  induction d with
  | zero =>
    intro a fuel ha hf
    obtain ⟨fuel, rfl⟩ : ∃ m, fuel = m + 1 := ⟨fuel - 1, by omega⟩
    have : a = t := by omega
    subst this
    unfold epsilonLoop whileLoop
    rw [hb, ok_bind, decide_eq_false (by omega)]
    rfl
  | succ d ih =>
    intro a fuel ha hf
    obtain ⟨fuel, rfl⟩ : ∃ m, fuel = m + 1 := ⟨fuel - 1, by omega⟩
    have hlt := h2 a (by omega)
    have hpow : (2 : Int) ^ a * 2 = 2 ^ (a + 1) := by rw [pow_succ]
    have hpos : (0 : Int) < 2 ^ (a + 1) := by positivity
    have hle : (2 : Int) ^ (a + 1) ≤ 2 ^ t := pow_le_pow_right₀ (by norm_num) (by omega)
    have := ih (a + 1) fuel (by omega) (by omega)
    unfold epsilonLoop at this ⊢
    unfold whileLoop
    rw [hb, ok_bind, decide_eq_true hlt]
    simp only [if_true]
    rw [hpow, ck_ok (by omega) (by omega), ok_bind, if_pos (by omega), ok_bind]
    exact this

/-- exponent of the initial `epsilon` -/
def epsExp (n : Nat) (U : Int) : Nat := Nat.clog 2 (2 * (n + 1) * U.toNat)

theorem epsExp_le {n : Nat} {U : Int} (hU : 0 ≤ U) : 2 * ((n : Int) + 1) * U ≤ 2 ^ epsExp n U := by
  have := Nat.le_pow_clog (b := 2) (by norm_num) (2 * (n + 1) * U.toNat)
  have h2 : ((2 * (n + 1) * U.toNat : Nat) : Int) ≤ ((2 ^ epsExp n U : Nat) : Int) := by exact_mod_cast this
  push_cast at h2
  rwa [Int.toNat_of_nonneg hU] at h2

theorem lt_of_lt_epsExp {n : Nat} {U : Int} (hU : 0 ≤ U) {t : Nat} (ht : t < epsExp n U) :
    (2 : Int) ^ t < 2 * ((n : Int) + 1) * U := by
  have := Nat.pow_lt_of_lt_clog (b := 2) ht
  have h2 : ((2 ^ t : Nat) : Int) < ((2 * (n + 1) * U.toNat : Nat) : Int) := by exact_mod_cast this
  push_cast at h2
  rwa [Int.toNat_of_nonneg hU] at h2

/-! ### The edges -/

theorem doubleEdges_spec {D : Type} {imax : Int} {lim rl : Nat → OmegaLimit D} :
    ∀ (m : Nat) (E : Vec (OmegaLimit D)), 2 * m ≤ E.size → (∀ k, k < m → E.get k = lim k) →
      (∀ k, k < m → (lim k).reverse imax = .ok (rl k)) →
      ∃ E', doubleEdges imax m E = .ok E' ∧ E'.size = E.size ∧
        (∀ k, k < m → E'.get (2 * k) = lim k ∧ E'.get (2 * k + 1) = rl k) ∧
        ∀ i, 2 * m ≤ i → E'.get i = E.get i := by
  intro m
  induction m with
  | zero => intro E _ _ _; exact ⟨E, rfl, rfl, by simp, by simp⟩
  | succ m ih =>
    intro E hsz hE hr
    unfold doubleEdges
    dsimp only
    have hdiv : 2 * m / 2 = m := by omega
    rw [hdiv, Vec.rd_ok (by omega), ok_bind, Vec.wr_ok _ (by omega), ok_bind,
      Vec.rd_ok (by rw [Vec.set_size]; omega), ok_bind, Vec.wr_ok _ (by rw [Vec.set_size]; omega), ok_bind,
      Vec.rd_ok (by simp only [Vec.set_size]; omega), ok_bind, Vec.set_get_self, Vec.set_get_self,
      hE m (by omega), hr m (by omega), ok_bind, Vec.wr_ok _ (by simp only [Vec.set_size]; omega), ok_bind]
    obtain ⟨E', e1, e2, e3, e4⟩ := ih (((E.set (2 * m) (lim m)).set (2 * m + 1) (lim m)).set (2 * m + 1) (rl m))
      (by simp only [Vec.set_size]; omega)
      (by
        intro k hk
        rw [Vec.set_get_ne _ _ (by omega), Vec.set_get_ne _ _ (by omega), Vec.set_get_ne _ _ (by omega)]
        exact hE k (by omega))
      (fun k hk => hr k (by omega))
    refine ⟨E', e1, by rw [e2]; rfl, ?_, ?_⟩
    · intro k hk
      by_cases h : k = m
      · subst h
        rw [e4 _ (by omega), e4 _ (by omega)]
        simp [Vec.set_get]
      · exact e3 k (by omega)
    · intro i hi
      rw [e4 i (by omega), Vec.set_get_ne _ _ (by omega), Vec.set_get_ne _ _ (by omega), Vec.set_get_ne _ _ (by omega)]

/-! ### The network of a list of limits -/

/-- what the constructor of `Flow` relies on; `g` are the values of the callback, `R` bounds the range -/
structure LimOK (n : Nat) (M : K) (R : Int) (e : OmegaLimit K) (g : Int → K) : Prop where
  i_le : e.i ≤ n
  j_le : e.j ≤ n
  ne : e.i ≠ e.j
  le : e.l ≤ e.u
  lo : -R ≤ e.l
  hi : e.u ≤ R
  fn : e.fn.Is g e.l e.u
  conv : Convex g e.l e.u
  bd : ∀ x, e.l ≤ x → x + 1 ≤ e.u → |g (x + 1) - g x| ≤ M

/-- the network built from limits -/
def netOf (n : Nat) (M : K) (lim : Nat → OmegaLimit K) (gs : Nat → Int → K) (m : Nat) : Net K where
  n := n
  E := 2 * m
  src e := if e % 2 = 0 then (lim (e / 2)).i else (lim (e / 2)).j
  dst e := if e % 2 = 0 then (lim (e / 2)).j else (lim (e / 2)).i
  lo e := if e % 2 = 0 then (lim (e / 2)).l else -(lim (e / 2)).u
  up e := if e % 2 = 0 then (lim (e / 2)).u else -(lim (e / 2)).l
  g e := if e % 2 = 0 then gs (e / 2) else fun x => gs (e / 2) (-x)
  M := M

theorem even_or (e : Nat) : ∃ k, (e = 2 * k ∧ e ^^^ 1 = 2 * k + 1) ∨ (e = 2 * k + 1 ∧ e ^^^ 1 = 2 * k) := by
  rcases Nat.even_or_odd' e with ⟨k, rfl | rfl⟩
  · exact ⟨k, .inl ⟨rfl, two_xor k⟩⟩
  · refine ⟨k, .inr ⟨rfl, ?_⟩⟩
    rw [← two_xor, xor_xor]

section
variable {n : Nat} {M : K} {lim : Nat → OmegaLimit K} {gs : Nat → Int → K} {m : Nat} {R : Int}

@[simp] theorem par0 (k : Nat) : 2 * k % 2 = 0 := by omega
@[simp] theorem par1 (k : Nat) : (2 * k + 1) % 2 = 1 := by omega
@[simp] theorem half0 (k : Nat) : 2 * k / 2 = k := by omega
@[simp] theorem half1 (k : Nat) : (2 * k + 1) / 2 = k := by omega

theorem netOf_ok (hM : 0 ≤ M) (h : ∀ k, k < m → LimOK n M R (lim k) (gs k)) : (netOf n M lim gs m).OK := by
  have hN : 0 < (netOf n M lim gs m).N := by unfold Net.N; omega
  have hed : ∀ k, k < m → EdgeOK (netOf n M lim gs m).N M (lim k).l (lim k).u (gs k) := fun k hk =>
    ⟨hN, (h k hk).le, (h k hk).conv, (h k hk).bd, hM⟩
  constructor
  all_goals
    intro e he
    obtain ⟨k, ⟨rfl, hx⟩ | ⟨rfl, hx⟩⟩ := even_or e
    all_goals
      have hk : k < m := by simp only [netOf] at he; omega
      have hl := h k hk
      try rw [hx]
      simp only [netOf, par0, par1, half0, half1, if_true, Nat.one_ne_zero, if_false]
  · exact hl.i_le
  · exact hl.j_le
  · exact hl.j_le
  · exact hl.i_le
  · exact hl.ne
  · exact hl.ne.symm
  · omega
  · omega
  · simp
  · simp
  · simp
  · exact hed k hk
  · exact (hed k hk).rev

theorem netOf_fits {imax : Int} {kb : Nat} (h : ∀ k, k < m → LimOK n M R (lim k) (gs k)) (hR : R ≤ imax)
    (hw : ∀ k, k < m → (lim k).u - (lim k).l ≤ imax) (hb : ∀ k, k < m → (lim k).u - (lim k).l < 2 ^ kb)
    {e} (he : e < (netOf n M lim gs m).E) :
    Fits imax kb ((netOf n M lim gs m).lo e) ((netOf n M lim gs m).up e) := by
  obtain ⟨k, ⟨rfl, hx⟩ | ⟨rfl, hx⟩⟩ := even_or e
  all_goals
    have hk : k < m := by simp only [netOf] at he; omega
    have hl := h k hk
    have h1 := hw k hk
    have h2 := hb k hk
    have h3 := hl.le
    have h4 := hl.lo
    have h5 := hl.hi
    simp only [netOf, par0, par1, half0, half1, if_true, Nat.one_ne_zero, if_false]
  · exact ⟨h3, by omega, by omega, h1, h2⟩
  · exact ⟨by omega, by omega, by omega, by omega, by omega⟩

theorem netOf_start (hM : 0 ≤ M) (h : ∀ k, k < m → LimOK n M R (lim k) (gs k)) {e} (he : e < (netOf n M lim gs m).E)
    {c : Int} (hc : (netOf n M lim gs m).N * R ≤ c) : (netOf n M lim gs m).L e (-c) ≤ 0 := by
  have ok := netOf_ok hM h
  have hlo : -R ≤ (netOf n M lim gs m).lo e := by
    obtain ⟨k, ⟨rfl, hx⟩ | ⟨rfl, hx⟩⟩ := even_or e
    all_goals
      have hk : k < m := by simp only [netOf] at he; omega
      have hl := h k hk
      have h4 := hl.lo
      have h5 := hl.hi
      simp only [netOf, par0, par1, half0, half1, if_true, Nat.one_ne_zero, if_false]
      omega
  have hN : 0 < (netOf n M lim gs m).N := (ok.edge e he).npos
  unfold Net.L lft
  have hcd : cdiv (-c) (netOf n M lim gs m).N ≤ -R := by
    rw [cdiv_neg]
    have := Int.le_ediv_of_mul_le hN (show R * (netOf n M lim gs m).N ≤ c by rw [Int.mul_comm]; exact hc)
    omega
  have hle := (ok.edge e he).le
  rw [if_neg (by omega), if_pos (by omega)]
  have : (netOf n M lim gs m).M = M := rfl
  rw [this]; linarith

theorem buildG {D : Type} {n : Nat} (E : Vec (OmegaLimit D)) (hE : ∀ e, e < E.size → (E.get e).i ≤ n) :
    ∃ G, forRange (fun (G : Vec (List Nat)) e_id => do
          let e ← E.rd e_id
          let g ← G.rd e.i
          G.wr e.i (g ++ [e_id])) 0 E.size (Vec.replicate (n + 1) []) = .ok G ∧ G.size = n + 1 ∧
      ∀ v, v ≤ n → G.get v = (List.range E.size).filter (fun e => (E.get e).i = v) := by
  obtain ⟨G, e1, e2, e3⟩ := forRange_ok (body := fun (G : Vec (List Nat)) e_id => do
          let e ← E.rd e_id
          let g ← G.rd e.i
          G.wr e.i (g ++ [e_id])) (hi := E.size)
    (Inv := fun G i => G.size = n + 1 ∧ ∀ v, v ≤ n → G.get v = (List.range i).filter (fun e => (E.get e).i = v))
    (by
      rintro G i ⟨h1, h2⟩ hi
      have := hE i hi
      refine ⟨G.set (E.get i).i (G.get (E.get i).i ++ [i]), ?_, h1, fun v hv => ?_⟩
      · rw [Vec.rd_ok hi, ok_bind, Vec.rd_ok (by omega), ok_bind, Vec.wr_ok _ (by omega)]
      · rw [List.range_succ, List.filter_append, Vec.set_get]
        by_cases hvi : v = (E.get i).i
        · subst hvi; simp [h2 _ this]
        · have : ¬ (E.get i).i = v := fun h => hvi h.symm
          simp [hvi, h2 v hv, this])
    E.size 0 (Vec.replicate (n + 1) []) ⟨rfl, by simp⟩ (by omega)
  exact ⟨G, e1, e2, e3⟩

end

variable {R : Type} [Zero R] [One R] [Add R] [Sub R] [Neg R] [Mul R] [Div R] [IntCast R] [BEq R] [LT R] [LE R]
  [DecidableLT R] [DecidableLE R]

/-- The edges of the object over `R` leave enough room. -/
theorem room_of {E : FEmb K R} {net : Net K} {s : Flow K} {ed : Vec (OmegaLimit R)} {b C : K} (st : Static net s)
    (hM : 0 ≤ net.M) (hMU : net.M ∈ E.U) (hC : C ≤ -(net.E * net.M))
    (mem : ∀ x ∈ E.U, |x| ≤ net.E * net.M + 2 * net.M - C → E.I x) (hsz : ed.size = net.E)
    (hed : ∀ e, e < net.E → LR E b (s.edges.get e) (ed.get e)) : Room E ed net C where
  M0 := hM
  MU := hMU
  gU := fun e he x h1 h2 => by
    obtain ⟨v, p, q, r, -⟩ := (hed e he).fn x (by rw [st.el e he]; exact h1) (by rw [st.eu e he]; exact h2)
    rw [st.ef e he x h1 h2] at p
    cases p; exact r
  C_le := hC
  mem := mem
  esz := hsz
  ei := fun e he => by rw [(hed e he).i, st.ei e he]
  ej := fun e he => by rw [(hed e he).j, st.ej e he]
  el := fun e he => by rw [(hed e he).l, st.el e he]
  eu := fun e he => by rw [(hed e he).u, st.eu e he]
  ef := fun e he x h1 h2 => by
    obtain ⟨v, p, q, r, -⟩ := (hed e he).fn x (by rw [st.el e he]; exact h1) (by rw [st.eu e he]; exact h2)
    rw [st.ef e he x h1 h2] at p
    cases p; exact q

/-- The state built by the constructor. -/
theorem mk'_spec (E : FEmb K R) (hI0 : E.I 0) {imax : Int} {fuel n : Nat} {M : K} {U W : Int} {limits : List (OmegaLimit K)} {gs : Nat → Int → K}
    (hM : 0 ≤ M) (hU : 0 ≤ U) (h : ∀ k, (hk : k < limits.length) → LimOK n M W limits[k] (gs k))
    (hR : W ≤ imax) (hN : 2 * ((n : Int) + 1) ≤ imax) (heps : (2 : Int) ^ epsExp n U ≤ imax)
    (hfuel : epsExp n U < fuel) {c : Int} (hc : 2 * ((n : Int) + 1) * W ≤ c) :
    ∃ s, mk' imax fuel n M U limits = .ok s ∧ s.epsilon = 2 ^ epsExp n U ∧ (∀ v, s.scaling.get v = 0) ∧
      (∀ e, s.flows.get e = 0) ∧
      PInv E 0 (netOf n M (fun k => limits.getD k default) gs limits.length) c s ∧
      ∀ b limR, List.Forall₂ (LR E b) limits limR → ∃ ed, mk' imax fuel n (E.e M) U limR = .ok (E.F ed s) ∧
        ed.size = 2 * limits.length ∧ ∀ e, e < 2 * limits.length → LR E b (s.edges.get e) (ed.get e) := by
  set lim : Nat → OmegaLimit K := fun k => limits.getD k default with hlim
  set m := limits.length with hm
  have hL : ∀ k, k < m → LimOK n M W (lim k) (gs k) := by
    intro k hk
    have := h k hk
    have e : lim k = limits[k] := by simp [hlim, List.getD_eq_getElem?_getD, List.getElem?_eq_getElem hk]
    rw [e]; exact this
  set net := netOf n M lim gs m with hnet
  have ok : net.OK := netOf_ok hM hL
  have hrev : ∀ k, ∃ r, k < m → (lim k).reverse imax = .ok r ∧ r.l = -(lim k).u ∧ r.u = -(lim k).l ∧ r.i = (lim k).j ∧
      r.j = (lim k).i ∧ r.fn.Is (fun x => gs k (-x)) (-(lim k).u) (-(lim k).l) := by
    intro k
    by_cases hk : k < m
    · have h1 := (hL k hk).lo
      have h2 := (hL k hk).hi
      obtain ⟨fn', f1, f2⟩ := reverse_spec (imax := imax) (e := lim k) (by omega) (hL k hk).le (by omega)
      exact ⟨_, fun _ => ⟨f1, rfl, rfl, rfl, rfl, f2 _ (hL k hk).fn⟩⟩
    · exact ⟨default, fun h => absurd h hk⟩
  choose rl hrl using hrev
  obtain ⟨E', d1, d2, d3, -⟩ := doubleEdges_spec (imax := imax) (lim := lim) (rl := rl) m
    ((Vec.ofList limits default).resize ((Vec.ofList limits default).size * 2) default)
    (by simp [Vec.resize, Vec.ofList]; omega)
    (by
      intro k hk
      simp [Vec.resize, Vec.ofList, hlim]
      intro hh; omega)
    (fun k hk => (hrl k hk).1)
  have hsz : E'.size = 2 * m := by rw [d2]; simp [Vec.resize, Vec.ofList]; omega
  -- the edges
  have hedge : ∀ e, e < net.E → (E'.get e).i = net.src e ∧ (E'.get e).j = net.dst e ∧ (E'.get e).l = net.lo e ∧
      (E'.get e).u = net.up e ∧ (E'.get e).fn.Is (net.g e) (net.lo e) (net.up e) := by
    intro e he
    obtain ⟨k, ⟨rfl, hx⟩ | ⟨rfl, hx⟩⟩ := even_or e
    all_goals
      have hk : k < m := by simp only [hnet, netOf] at he; omega
      simp only [hnet, netOf, par0, par1, half0, half1, if_true, Nat.one_ne_zero, if_false]
    · rw [(d3 k hk).1]
      exact ⟨rfl, rfl, rfl, rfl, (hL k hk).fn⟩
    · rw [(d3 k hk).2]
      obtain ⟨-, r1, r2, r3, r4, r5⟩ := hrl k hk
      exact ⟨r3, r4, r1, r2, r5⟩
  obtain ⟨G, g1, g2, g3⟩ := buildG (n := n) E' (by
    intro e he
    rw [(hedge e (by rw [hsz] at he; exact he)).1]
    exact ok.src_le e (by rw [hsz] at he; exact he))
  have heps' := epsExp_le (n := n) hU
  have hassert : U ≤ (((2 : Int) ^ epsExp n U).tdiv 2).tdiv ((n : Int) + 1) := by
    have hp : (0 : Int) ≤ 2 ^ epsExp n U := by positivity
    rw [Int.tdiv_eq_ediv_of_nonneg hp, Int.tdiv_eq_ediv_of_nonneg (Int.ediv_nonneg hp (by norm_num))]
    refine Int.le_ediv_of_mul_le (by omega) ?_
    refine Int.le_ediv_of_mul_le (by omega) ?_
    calc U * (↑n + 1) * 2 = 2 * ((n : Int) + 1) * U := by ring
      _ ≤ _ := heps'
  have hel := epsilonLoop_spec (imax := imax) (n := n) hU (by omega) (epsExp n U) heps'
    (fun t' ht => lt_of_lt_epsExp hU ht) heps hN (epsExp n U) 0 fuel (by omega) hfuel
  rw [pow_zero] at hel
  refine ⟨{
        n := n
        M := M
        epsilon := 2 ^ epsExp n U
        nodes := Vec.replicate (n + 1) LCT.initNode
        imbalances := Vec.replicate (n + 1) 0
        currentEdge := Vec.replicate (n + 1) 0
        uq := UQ.mk' (n + 1)
        fa := Vec.replicate (n + 1) none
        edges := E'
        flows := Vec.replicate E'.size 0
        G := G
        scaling := Vec.replicate (n + 1) 0 }, ?_, rfl, fun _ => rfl, fun _ => rfl, ?_, ?_⟩
  · unfold mk'
    rw [hel, ok_bind, toInt, ck_ok (by omega) (by push_cast; omega), ok_bind, if_pos (by push_cast; omega),
      if_pos (by push_cast; exact hassert)]
    dsimp only
    rw [d1, ok_bind, g1, ok_bind]
  · refine ⟨?_, ⟨fun _ => 0, repE_init hI0 (n + 1), fun v _ => ⟨E.U.zero_mem, le_rfl, mul_nonneg zero_le_two hM⟩⟩, fun _ _ => rfl, ?_, ?_, ?_, fun _ _ => rfl, ?_, UQ.ok_mk _, rfl, fun _ _ => E.U.zero_mem⟩
    · refine ⟨rfl, rfl, hsz, fun e he => (hedge e he).1, fun e he => (hedge e he).2.1, fun e he => (hedge e he).2.2.1,
        fun e he => (hedge e he).2.2.2.1, fun e he x h1 h2 => (hedge e he).2.2.2.2 x h1 h2, g2, ?_, rfl, rfl, rfl, rfl, rfl,
        hsz, rfl⟩
      intro v hv
      show G.get v = _
      rw [g3 v hv, hsz]
      unfold Net.out
      apply List.filter_congr
      intro e he
      rw [(hedge e (by rw [List.mem_range] at he; exact he)).1]
    · intro e he; simp
    · intro e he; exact hM
    · intro v hv
      unfold excess
      apply Finset.sum_eq_zero
      intro e _; rfl
    · intro e he
      have := netOf_start hM hL he (c := c) hc
      simpa [dd] using this
  · intro b limR hLR
    set limr : Nat → OmegaLimit R := fun k => limR.getD k default with hlimr
    have hlen : limR.length = m := hLR.length_eq.symm
    have hLR' : ∀ k, k < m → LR E b (lim k) (limr k) := by
      intro k hk
      have hk' : k < limR.length := by omega
      have := (List.forall₂_iff_get.1 hLR).2 k hk hk'
      simp only [List.get_eq_getElem] at this
      have e1 : lim k = limits[k] := by simp [hlim, List.getD_eq_getElem?_getD, List.getElem?_eq_getElem hk]
      have e2 : limr k = limR[k] := by simp [hlimr, List.getD_eq_getElem?_getD, List.getElem?_eq_getElem hk']
      rw [e1, e2]; exact this
    have hrevR : ∀ k, ∃ r, k < m → (limr k).reverse imax = .ok r ∧ LR E b (rl k) r := by
      intro k
      by_cases hk : k < m
      · have h2 := (hL k hk).hi
        obtain ⟨r, r1, r2⟩ := (hLR' k hk).reverse (imax := imax) (by omega) (hrl k hk).1
        exact ⟨r, fun _ => ⟨r1, r2⟩⟩
      · exact ⟨default, fun h => absurd h hk⟩
    choose rlR hrlR using hrevR
    obtain ⟨ed, dr1, dr2, dr3, -⟩ := doubleEdges_spec (imax := imax) (lim := limr) (rl := rlR) m
      ((Vec.ofList limR default).resize ((Vec.ofList limR default).size * 2) default)
      (by simp [Vec.resize, Vec.ofList]; omega)
      (by
        intro k hk
        simp [Vec.resize, Vec.ofList, hlimr]
        intro hh; omega)
      (fun k hk => (hrlR k hk).1)
    have hszR : ed.size = 2 * m := by rw [dr2]; simp [Vec.resize, Vec.ofList]; omega
    have hedR : ∀ e, e < 2 * m → LR E b (E'.get e) (ed.get e) := by
      intro e he
      obtain ⟨k, ⟨rfl, hx⟩ | ⟨rfl, hx⟩⟩ := even_or e
      · rw [(d3 k (by omega)).1, (dr3 k (by omega)).1]; exact hLR' k (by omega)
      · rw [(d3 k (by omega)).2, (dr3 k (by omega)).2]; exact (hrlR k (by omega)).2
    refine ⟨ed, ?_, hszR, hedR⟩
    have hG : forRange (fun (G : Vec (List Nat)) e_id => do
          let e ← ed.rd e_id
          let g ← G.rd e.i
          G.wr e.i (g ++ [e_id])) 0 ed.size (Vec.replicate (n + 1) []) = .ok G := by
      rw [← g1, hszR, hsz]
      refine (forRange_sim (fun G : Vec (List Nat) => G) (fun _ _ => True) (hi := 2 * m) ?_ (fun _ _ _ _ _ _ => trivial)
        (2 * m) 0 _ trivial (by omega)).trans (LCT.map_id' _)
      intro G i _ hi
      rw [LCT.map_id', Vec.rd_ok (by omega), Vec.rd_ok (by omega), ok_bind, ok_bind, (hedR i hi).i]
    unfold mk'
    rw [hel, ok_bind, toInt, ck_ok (by omega) (by push_cast; omega), ok_bind, if_pos (by push_cast; omega),
      if_pos (by push_cast; exact hassert)]
    dsimp only
    rw [hlen, dr1, ok_bind, hG, ok_bind]
    congr 1
    unfold FEmb.F
    congr 1
    · unfold Emb.h Vec.map Vec.replicate Emb.n LCT.initNode
      simp only [E.zero]
    · unfold Vec.map Vec.replicate
      simp only [E.zero]
    · unfold Vec.map Vec.replicate
      simp only [E.zero, hsz, hszR]

end AHO.Flow
