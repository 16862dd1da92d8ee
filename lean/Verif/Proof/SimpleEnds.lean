import Verif.Proof.RoundPhase
import Verif.Proof.SimpleCost
/-!
# `SimpleSolver::Solve` with rounded arithmetic: termination
-/

namespace AHO

/-- The numbers `z / 2 ^ J` are exact. -/
theorem Rd.gridArith {K : Type} [Field K] [LinearOrder K] [IsStrictOrderedRing K] (ρ : Rounding K) {C B : Int} (hC : 0 < C)
    (hex : ∀ z : Int, |z| ≤ B → ρ.rnd ((z : K) / C) = z / C) : GridArith (Rd ρ) (fun z => Rd.of ρ ((z : K) / C)) C B := by
  have hCK : (0 : K) < C := by exact_mod_cast hC
  have hval : ∀ z : Int, |z| ≤ B → (Rd.of ρ ((z : K) / C)).val = z / C := hex
  have hint : ∀ k : Int, |k * C| ≤ B → ρ.rnd (k : K) = k := by
    intro k hk
    have := hex _ hk
    push_cast at this
    rwa [mul_div_cancel_right₀ _ hCK.ne'] at this
  refine ⟨Rd.posArith ρ, ?_, ?_, ?_, ?_, ?_, ?_, ?_, ?_, ?_, ?_⟩
  · intro a
    refine Rd.ext ?_
    show ρ.rnd (a.val - a.val) = 0
    rw [sub_self, ρ.zero]
  · intro a
    refine Rd.ext ?_
    show ρ.rnd (a.val + 0) = a.val
    rw [add_zero, a.fix]
  · intro a
    refine Rd.ext ?_
    show ρ.rnd (a.val - 0) = a.val
    rw [sub_zero, a.fix]
  · refine Rd.ext ?_
    show ρ.rnd (((0 : Int) : K) / C) = 0
    rw [Int.cast_zero, zero_div, ρ.zero]
  · intro c _
    refine Rd.ext ?_
    show ρ.rnd (c : K) = ρ.rnd (((c * C : Int) : K) / C)
    push_cast
    rw [mul_div_cancel_right₀ _ hCK.ne']
  · intro a b ha hb _
    refine Rd.ext ?_
    show ρ.rnd ((Rd.of ρ ((a : K) / C)).val + (Rd.of ρ ((b : K) / C)).val) = ρ.rnd (((a + b : Int) : K) / C)
    rw [hval a ha, hval b hb]
    push_cast
    rw [add_div]
  · intro a b ha hb _
    refine Rd.ext ?_
    show ρ.rnd ((Rd.of ρ ((a : K) / C)).val - (Rd.of ρ ((b : K) / C)).val) = ρ.rnd (((a - b : Int) : K) / C)
    rw [hval a ha, hval b hb]
    push_cast
    rw [sub_div]
  · intro a b ha hb
    show (Rd.of ρ ((a : K) / C)).val < (Rd.of ρ ((b : K) / C)).val ↔ a < b
    rw [hval a ha, hval b hb, div_lt_div_iff_of_pos_right hCK]
    exact_mod_cast Iff.rfl
  · intro a ha h2
    refine Rd.ext ?_
    show ρ.rnd ((Rd.of ρ (((2 * a : Int) : K) / C)).val / ρ.rnd (((2 : Int)) : K)) = ρ.rnd ((a : K) / C)
    rw [hval _ ha, hint 2 h2]
    push_cast
    congr 1
    field_simp
  · intro a k ha hk _
    refine Rd.ext ?_
    show ρ.rnd ((Rd.of ρ ((a : K) / C)).val * ρ.rnd (k : K)) = ρ.rnd (((a * k : Int) : K) / C)
    rw [hval a ha, hint k hk]
    push_cast
    congr 1
    ring

namespace SimpleSolver
open Spec
set_option linter.unusedSectionVars false

/-- `f` has values on `[l, r]`. -/
def Total {D : Type} (f : Fn D) (l r : Int) : Prop := ∀ x, l ≤ x → x ≤ r → ∃ v, f x = .ok v

theorem ternary_total {D : Type} [LT D] [LE D] [DecidableLT D] [DecidableLE D] {imax : Int} {f : Fn D} : ∀ {fuel : Nat} {l r : Int}, r - l < fuel →
    l ≤ r → -imax - 1 ≤ l → r ≤ imax → r - l ≤ imax → Total f l r → ∃ m, ternary imax f fuel l r = .ok m := by
  intro fuel
  induction fuel with
  | zero => intro l r h1 h2; simp at h1; omega
  | succ fuel ih =>
    intro l r h1 h2 h3 h4 h5 h6
    push_cast at h1
    unfold ternary
    by_cases hlr : l < r
    · rw [if_pos hlr, ck_ok (by omega) h5, ok_bind]
      have hdiv : (r - l).tdiv 3 = (r - l) / 3 := Int.tdiv_eq_ediv_of_nonneg (by omega)
      rw [hdiv, ck_ok (by omega) (by omega), ok_bind, ck_ok (by omega) (by omega), ok_bind]
      obtain ⟨a, ea⟩ := h6 (l + (r - l) / 3) (by omega) (by omega)
      obtain ⟨b, eb⟩ := h6 (r - (r - l) / 3) (by omega) (by omega)
      rw [ea, ok_bind, eb, ok_bind]
      by_cases hg : a ≤ b
      · rw [if_pos hg, ck_ok (by omega) (by omega), ok_bind]
        exact ih (by omega) (by omega) h3 (by omega) (by omega) fun x a b => h6 x a (by omega)
      · rw [if_neg hg, ck_ok (by omega) (by omega), ok_bind]
        exact ih (by omega) (by omega) (by omega) h4 (by omega) fun x a b => h6 x (by omega) b
    · obtain ⟨a, ea⟩ := h6 l le_rfl h2
      obtain ⟨b, eb⟩ := h6 r h2 le_rfl
      rw [if_neg hlr, ea, ok_bind, eb, ok_bind]
      exact ⟨_, rfl⟩

variable {K : Type} [Field K] [LinearOrder K] [IsStrictOrderedRing K] {ρ : Rounding K} {imax R : Int} {fuel : Nat}

/-- the edges for one cost -/
structure Made (N : Nat) (R : Int) (es : List (InputEdge (Rd ρ))) (k : Int) : Prop where
  arcs : Arcs N es
  cost : ∀ a ∈ es, |a.cost| ≤ R
  len : (es.length : Int) ≤ 2 * k

theorem Made.append {N : Nat} {es es' : List (InputEdge (Rd ρ))} {k k' : Int} (h : Made N R es k) (h' : Made N R es' k') : Made N R (es ++ es') (k + k') := by
  refine ⟨fun a ha => ?_, fun a ha => ?_, ?_⟩
  · exact (List.mem_append.1 ha).elim (h.arcs a) (h'.arcs a)
  · exact (List.mem_append.1 ha).elim (h.cost a) (h'.cost a)
  · have := h.len
    have := h'.len
    rw [List.length_append]; push_cast; omega

section
variable {f : Fn (Rd ρ)} {g : Int → K} {l r : Int}

theorem bij_total (tot : Total f l r) (hr : r ≤ imax) (hl : -imax - 1 ≤ l) (x : Int) : ∃ m, bij imax f l r x = .ok m := by
  unfold bij
  by_cases h1 : x < l
  · rw [if_pos h1]; exact ⟨_, rfl⟩
  · rw [if_neg h1]
    by_cases h2 : r ≤ x
    · rw [if_pos h2]; exact ⟨_, rfl⟩
    · rw [if_neg h2, ck_ok (by omega) (by omega), ok_bind]
      obtain ⟨a, ea⟩ := tot (x + 1) (by omega) (by omega)
      obtain ⟨b, eb⟩ := tot x (by omega) (by omega)
      rw [ea, ok_bind, eb, ok_bind]
      exact ⟨_, rfl⟩

theorem splitAt_total (hM : ρ.rnd (bigM : K) = bigM) (S : Shape f g l r) (tot : Total f l r) (hr : r ≤ imax) (hl : -imax ≤ l)
    {N u v : Nat} (hu : u < N) (hv : v < N) (huv : u ≠ v) {j : Int} (h1 : l ≤ j) (h2 : j ≤ r) (hj : |j| ≤ R) :
    ∃ es, splitAt imax f l r u v j = .ok es ∧ Made N R es 1 := by
  have A := Rd.posArith ρ
  unfold splitAt
  obtain ⟨lo, elo⟩ := bij_total tot hr (by omega) (j - 1)
  obtain ⟨up, eup⟩ := bij_total tot hr (by omega) j
  have hle : lo ≤ up := by
    show lo.val ≤ up.val
    rw [bij_sound hM S elo, bij_sound hM S eup]
    exact ρ.mono _ _ (slp_mono S.ok (by omega))
  rw [ck_ok (by omega) (by omega), ok_bind, elo, ok_bind, eup, ok_bind]
  have hnj : |(-j)| ≤ R := by rwa [abs_neg]
  by_cases c1 : 0 ≤ lo
  · rw [if_pos c1]
    refine ⟨_, rfl, fun a ha => ?_, fun a ha => ?_, by simp⟩
    · cases List.mem_singleton.1 ha
      exact ⟨hu, hv, huv, A.sub_nonneg _ _ hle⟩
    · cases List.mem_singleton.1 ha
      exact hj
  · rw [if_neg c1, ck_ok (by omega) (by omega), ok_bind]
    by_cases c2 : up ≤ 0
    · rw [if_pos c2]
      refine ⟨_, rfl, fun a ha => ?_, fun a ha => ?_, by simp⟩
      · cases List.mem_singleton.1 ha
        exact ⟨hv, hu, huv.symm, A.sub_nonneg _ _ hle⟩
      · cases List.mem_singleton.1 ha
        exact hnj
    · rw [if_neg c2]
      refine ⟨_, rfl, fun a ha => ?_, fun a ha => ?_, by simp⟩
      · rcases List.mem_cons.1 ha with rfl | ha
        · exact ⟨hu, hv, huv, (not_le.1 c2).le⟩
        · cases List.mem_singleton.1 ha
          exact ⟨hv, hu, huv.symm, A.neg_nonneg _ (not_le.1 c1).le⟩
      · rcases List.mem_cons.1 ha with rfl | ha
        · exact hj
        · cases List.mem_singleton.1 ha
          exact hnj

theorem split_total (hM : ρ.rnd (bigM : K) = bigM) (S : Shape f g l r) (tot : Total f l r) (hlr : l ≤ r) (hr : r + 1 ≤ imax) (hl : -imax ≤ l)
    (hlR : -R ≤ l) (hrR : r ≤ R) (hfuel : r - l + 1 < fuel)
    {N u v : Nat} (hu : u < N) (hv : v < N) (huv : u ≠ v) (edge : List (InputEdge (Rd ρ))) :
    ∃ es, split imax fuel f l r u v edge = .ok (edge ++ es) ∧ Made N R es (r - l + 1) := by
  unfold split
  have key : ∀ (c : Nat) (fuel : Nat) (j : Int) (acc : List (InputEdge (Rd ρ))), c < fuel → j + c = r + 1 → l ≤ j →
      ∃ es, whileLoop (fun (s : Int × List (InputEdge (Rd ρ))) => .ok (decide (s.1 ≤ r)))
        (fun s => do
          let es ← splitAt imax f l r u v s.1
          let j ← ck imax (s.1 + 1)
          .ok (j, s.2 ++ es)) fuel (j, acc) = .ok (r + 1, acc ++ es) ∧ Made N R es c := by
    intro c
    induction c with
    | zero =>
      intro fuel j acc h1 h2 h3
      obtain ⟨fuel, rfl⟩ : ∃ m, fuel = m + 1 := ⟨fuel - 1, by omega⟩
      refine ⟨[], ?_, fun a ha => (by cases ha), fun a ha => (by cases ha), by simp⟩
      unfold whileLoop
      dsimp only
      rw [ok_bind, if_neg (by simp; omega), show j = r + 1 by omega, List.append_nil]
    | succ c ih =>
      intro fuel j acc h1 h2 h3
      obtain ⟨fuel, rfl⟩ : ∃ m, fuel = m + 1 := ⟨fuel - 1, by omega⟩
      obtain ⟨es, e1, m1⟩ := splitAt_total (imax := imax) (R := R) hM S tot (by omega) hl hu hv huv (j := j) h3 (by omega) (abs_le.2 ⟨by omega, by omega⟩)
      obtain ⟨es', e2, m2⟩ := ih fuel (j + 1) (acc ++ es) (by omega) (by push_cast at h2; omega) (by omega)
      refine ⟨es ++ es', ?_, ?_⟩
      · unfold whileLoop
        dsimp only
        rw [ok_bind, if_pos (by simp; omega), e1, ok_bind, ck_ok (by omega) (by omega), ok_bind, ok_bind, e2, List.append_assoc]
      · have := m1.append m2
        rw [add_comm] at this
        push_cast
        exact this
  obtain ⟨es, e1, m1⟩ := key (r - l + 1).toNat fuel l edge (by omega) (by omega) le_rfl
  rw [show ((r - l + 1).toNat : Int) = r - l + 1 by omega] at m1
  exact ⟨es, by rw [e1, ok_bind], m1⟩

end

/-- the invariant of `Solve` after `k` costs -/
structure StateT (N : Nat) (R : Int) (k : Nat) (s : State (Rd ρ)) : Prop where
  made : Made N R s.edge ((2 * R + 1) * k)
  parts : ∀ q ∈ s.parts, Total q.1 q.2.1 q.2.2 ∧ -R ≤ q.2.1 ∧ q.2.1 ≤ q.2.2 ∧ q.2.2 ≤ R

theorem StateT.add {N k : Nat} {s : State (Rd ρ)} (T : StateT N R k s) {es : List (InputEdge (Rd ρ))} {f : Fn (Rd ρ)} {l r : Int} (tot : Total f l r)
    (hlr : l ≤ r) (hl : -R ≤ l) (hr : r ≤ R) (m : Made N R es (r - l + 1)) (mx : Rd ρ) : StateT N R (k + 1) ⟨s.parts ++ [(f, l, r)], s.edge ++ es, mx⟩ := by
  have h := T.made.append m
  refine ⟨⟨h.arcs, h.cost, ?_⟩, fun q hq => ?_⟩
  · have := h.len
    push_cast
    rw [Int.mul_add (2 * R + 1)]
    omega
  · rcases List.mem_append.1 hq with hq | hq
    · exact T.parts q hq
    · cases List.mem_singleton.1 hq
      exact ⟨tot, hl, hlr, hr⟩

variable {P : Problem (Rd ρ)} {Mus : List (MuLimit (Rd ρ))} {Omegas : List (OmegaLimit (Rd ρ))}

theorem nodes_total (hM : ρ.rnd (bigM : K) = bigM) (hlen : Mus.length = P.n + 1)
    (hmus : ∀ (i : Nat) (h : i < Mus.length), 1 ≤ i → CostVal Mus[i] (P.F i) ∧ -R ≤ Mus[i].l ∧ Mus[i].l ≤ Mus[i].u ∧ Mus[i].u ≤ R)
    (hR : 2 * R + 1 ≤ imax) (hf : 2 * R + 1 < fuel) :
    ∀ (cnt i k : Nat) (s : State (Rd ρ)), 1 ≤ i → i + cnt = P.n + 1 → StateT (P.n + 1) R k s →
      ∃ s', nodes imax fuel Mus cnt i s = .ok (some s') ∧ StateT (P.n + 1) R (k + cnt) s' := by
  intro cnt
  induction cnt with
  | zero => intro i k s _ _ T; exact ⟨s, rfl, T⟩
  | succ cnt ih =>
    intro i k s hi hcnt T
    obtain ⟨F, h1, h2, h3⟩ := hmus i (by omega) hi
    have tot : Total Mus[i].fn Mus[i].l Mus[i].u := fun x a b => ⟨_, F.val x a b⟩
    obtain ⟨es, e1, m1⟩ := split_total (imax := imax) (fuel := fuel) (N := P.n + 1) (u := i) (v := 0) hM (F.shape h2) tot h2 (by omega) (by omega) h1 h3
      (by omega) (by omega) (by omega) (by omega) s.edge
    obtain ⟨s', e2, T2⟩ := ih (i + 1) (k + 1) _ (by omega) (by omega) (T.add tot h2 h1 h3 m1 (s.mx + dmax (P.F i Mus[i].l) (P.F i Mus[i].u)))
    refine ⟨s', ?_, by rw [show k + (cnt + 1) = k + 1 + cnt by omega]; exact T2⟩
    unfold nodes
    rw [listRd_ok (by omega), ok_bind, if_neg (by omega), F.val _ le_rfl h2, ok_bind, F.val _ h2 le_rfl, ok_bind, e1, ok_bind]
    exact e2

theorem pairs_total (hM : ρ.rnd (bigM : K) = bigM) (hlen : Mus.length = P.n + 1)
    (hmus : ∀ (i : Nat) (h : i < Mus.length), 1 ≤ i → -R ≤ Mus[i].l ∧ Mus[i].l ≤ Mus[i].u ∧ Mus[i].u ≤ R)
    (hR : 2 * R + 1 ≤ imax) (hn : (P.n : Int) + 1 ≤ imax) (hf : 2 * R + 1 < fuel) :
    ∀ (Os : List (OmegaLimit (Rd ρ))) (k : Nat) (s : State (Rd ρ)),
      (∀ o ∈ Os, 1 ≤ o.i ∧ o.i ≤ P.n ∧ 1 ≤ o.j ∧ o.j ≤ P.n ∧ o.i ≠ o.j ∧ -R ≤ o.l ∧ o.l ≤ o.u ∧ o.u ≤ R ∧ (∃ F, CostVal o.toMuLimit F) ∧
        ∀ mi mj, Mus[o.i]? = some mi → Mus[o.j]? = some mj → -R ≤ mi.l - mj.u) →
      StateT (P.n + 1) R k s → ∃ s', pairs imax fuel Mus Os s = .ok (some s') ∧ StateT (P.n + 1) R (k + Os.length) s' := by
  intro Os
  induction Os with
  | nil => intro k s _ T; exact ⟨s, rfl, T⟩
  | cons e Os ih =>
    intro k s g T
    obtain ⟨i1, i2, j1, j2, ne, l1, l2, l3, ⟨F, hF⟩, hd⟩ := g e (by simp)
    have hi : e.i < Mus.length := by omega
    have hj : e.j < Mus.length := by omega
    have hd := hd _ _ (List.getElem?_eq_getElem hi) (List.getElem?_eq_getElem hj)
    have bi := hmus e.i hi i1
    have bj := hmus e.j hj j1
    set d := Mus[e.i].l - Mus[e.j].u with hdd
    obtain ⟨g', S⟩ := hF.suffix l2 imax fuel (l := min e.l d) (by omega)
    have tot : Total (suffixMin imax fuel e) (min e.l d) e.u := by
      intro x a b
      unfold suffixMin
      exact ternary_total (by omega) (by omega) (by omega) (by omega) (by omega) fun y c d => ⟨_, hF.val y (by omega) d⟩
    obtain ⟨es, e1, m1⟩ := split_total (imax := imax) (fuel := fuel) (N := P.n + 1) (u := e.i) (v := e.j) (R := R) hM S tot (by omega) (by omega) (by omega)
      (by omega) l3 (by omega) (by omega) (by omega) ne s.edge
    obtain ⟨s', e2, T2⟩ := ih (k + 1) _ (fun o ho => g o (List.mem_cons_of_mem _ ho)) (T.add tot (by omega) (by omega) l3 m1 (s.mx + dmax (F e.l) (F e.u)))
    refine ⟨s', ?_, by rw [List.length_cons, show k + (Os.length + 1) = k + 1 + Os.length by omega]; exact T2⟩
    unfold pairs
    rw [if_neg (by omega), hF.val _ le_rfl l2, ok_bind, hF.val _ l2 le_rfl, ok_bind, listRd_ok hi, ok_bind, listRd_ok hj, ok_bind,
      ck_ok (by omega) (by omega), ok_bind]
    dsimp only
    rw [ck_ok (by omega) (by omega), ok_bind, ck_ok (by omega) (by omega), ok_bind]
    erw [e1, ok_bind]
    exact e2

theorem addMinima_total (hR : 2 * R + 1 ≤ imax) (hf : 2 * R + 1 < fuel) : ∀ (ps : List (Fn (Rd ρ) × Int × Int)) (res : Rd ρ),
    (∀ q ∈ ps, Total q.1 q.2.1 q.2.2 ∧ -R ≤ q.2.1 ∧ q.2.1 ≤ q.2.2 ∧ q.2.2 ≤ R) → ∃ v, addMinima imax fuel ps res = .ok v := by
  intro ps
  induction ps with
  | nil => intro res _; exact ⟨res, rfl⟩
  | cons q ps ih =>
    intro res h
    obtain ⟨f, l, r⟩ := q
    obtain ⟨h1, h2, h3, h4⟩ := h _ (List.mem_cons_self ..)
    dsimp only at h1 h2 h3 h4
    unfold addMinima
    obtain ⟨m, e⟩ := ternary_total (imax := imax) (fuel := fuel) (by omega) h3 (by omega) (by omega) (by omega) h1
    rw [e, ok_bind]
    exact ih _ fun q hq => h q (List.mem_cons_of_mem _ hq)

/-- Steps that suffice -/
def solveFuelR (n m : Nat) (R : Int) (J : Nat) : Nat :=
  (2 * R + 2).toNat + CS.minFuelR (n + 1) (2 * (2 * (2 * R + 1) * ((n : Int) + m)).toNat) J

/-- `SimpleSolver::Solve` ends. -/
theorem solve_ends (hM : ρ.rnd (bigM : K) = bigM) (rep : Represents P Mus Omegas) (wf : WellFormed P)
    (hcn : ∀ i, 1 ≤ i → i ≤ P.n → Convex (fun x => (P.F i x).val) (P.lo i) (P.hi i) ∧
      ∀ x, P.lo i ≤ x → x + 1 ≤ P.hi i → |(P.F i (x + 1)).val - (P.F i x).val| ≤ bigM)
    (hcp : ∀ p ∈ P.pairs, Convex (fun x => (p.B x).val) p.l p.u ∧ ∀ x, p.l ≤ x → x + 1 ≤ p.u → |(p.B (x + 1)).val - (p.B x).val| ≤ bigM)
    (wi : Within P R) (hl : ∀ p ∈ P.pairs, -R ≤ p.l) (hR0 : 1 ≤ R) (hR : 2 * R + 1 ≤ imax)
    (hn : (P.n : Int) + 1 ≤ imax) (hE : 4 * (2 * R + 1) * ((P.n : Int) + P.pairs.length) ≤ imax)
    {J : Nat} (hJ : R * ((P.n : Int) + 1) < 2 ^ J)
    (hex : ∀ z : Int, |z| ≤ (12 * ((P.n : Int) + 1) + 3) * R * 2 ^ J → ρ.rnd ((z : K) / 2 ^ J) = z / 2 ^ J)
    (hf : solveFuelR P.n P.pairs.length R J ≤ fuel) :
    ∃ s1 s2 c x r, nodes imax fuel Mus P.n 1 ⟨[], [], 0⟩ = .ok (some s1) ∧ pairs imax fuel Mus Omegas s1 = .ok (some s2) ∧
      CostScaling.minCostC imax fuel (P.n + 1) s2.edge = .ok (c, x) ∧ CS.PhaseStepsR (P.n + 1) (2 * s2.edge.length) J c ∧
      (s2.edge.length : Int) ≤ 2 * (2 * R + 1) * ((P.n : Int) + P.pairs.length) ∧ solve imax fuel P.n Mus Omegas = .ok r := by
  unfold solveFuelR at hf
  have hf1 : 2 * R + 1 < (fuel : Int) := by omega
  have hmus : ∀ (i : Nat) (h : i < Mus.length), 1 ≤ i → CostVal Mus[i] (P.F i) ∧ -R ≤ Mus[i].l ∧ Mus[i].l ≤ Mus[i].u ∧ Mus[i].u ≤ R := by
    intro i h h1
    have hm := rep.mus i h h1
    have hin : i ≤ P.n := by have := rep.len; omega
    obtain ⟨c1, c2⟩ := hcn i h1 hin
    refine ⟨⟨by rw [hm.l, hm.u]; exact hm.fn, by rw [hm.l, hm.u]; exact c1, by rw [hm.l, hm.u]; exact c2⟩, ?_, ?_, ?_⟩
    · rw [hm.l]; exact wi.lo i h1 hin
    · rw [hm.l, hm.u]; exact wf.nodes i h1 hin
    · rw [hm.u]; exact wi.hi i h1 hin
  have key : ∀ {es : List (OmegaLimit (Rd ρ))} {ps : List (Pair (Rd ρ))}, List.Forall₂ OmegaLimit.Is es ps → ∀ e ∈ es, ∃ p ∈ ps, e.Is p := by
    intro es ps h
    induction h with
    | nil => intro e he; cases he
    | cons h1 _ ih =>
      intro e he
      rcases List.mem_cons.1 he with rfl | he
      · exact ⟨_, List.mem_cons_self, h1⟩
      · obtain ⟨p, hp, h⟩ := ih e he
        exact ⟨p, List.mem_cons_of_mem _ hp, h⟩
  obtain ⟨s1, e1, T1⟩ := nodes_total (imax := imax) (fuel := fuel) hM rep.len hmus hR hf1 P.n 1 0 ⟨[], [], 0⟩ le_rfl (by omega)
    ⟨⟨fun a h => (by cases h), fun a h => (by cases h), by simp⟩, fun q h => (by cases h)⟩
  obtain ⟨s2, e2, T2⟩ := pairs_total (imax := imax) (fuel := fuel) hM rep.len (fun i h h1 => (hmus i h h1).2) hR hn hf1 Omegas _ s1
    (by
      intro o ho
      obtain ⟨p, hp, h⟩ := key rep.omegas o ho
      obtain ⟨c1, c2⟩ := hcp p hp
      refine ⟨by rw [h.i]; exact wf.i_pos p hp, by rw [h.i]; exact wf.i_le p hp, by rw [h.j]; exact wf.j_pos p hp, by rw [h.j]; exact wf.j_le p hp,
        by rw [h.i, h.j]; exact wf.ne p hp, by rw [h.l]; exact hl p hp, by rw [h.l, h.u]; exact wf.le p hp, by rw [h.u]; exact wi.u p hp,
        ⟨p.B, by rw [h.l, h.u]; exact h.fn, by rw [h.l, h.u]; exact c1, by rw [h.l, h.u]; exact c2⟩, fun mi mj hi hj => ?_⟩
      rw [h.i] at hi
      rw [h.j] at hj
      obtain ⟨hi', rfl⟩ := List.getElem?_eq_some_iff.1 hi
      obtain ⟨hj', rfl⟩ := List.getElem?_eq_some_iff.1 hj
      rw [(rep.mus _ hi' (wf.i_pos p hp)).l, (rep.mus _ hj' (wf.j_pos p hp)).u]
      exact wi.diff p hp) T1
  rw [Nat.zero_add, rep.omegas.length_eq] at T2
  have hlen := T2.made.len
  push_cast at hlen
  have hlen' : (s2.edge.length : Int) ≤ 2 * (2 * R + 1) * ((P.n : Int) + P.pairs.length) := by rw [mul_assoc]; exact hlen
  set T := 2 * (2 * R + 1) * ((P.n : Int) + P.pairs.length) with hT
  have hE' : 2 * T ≤ imax := by rw [hT]; convert hE using 1; ring
  have hT0 : (0 : Int) < 2 ^ J := pow_pos (by norm_num) _
  have A := Rd.gridArith ρ (C := 2 ^ J) (B := (12 * ((P.n : Int) + 1) + 3) * R * 2 ^ J) hT0 (by push_cast; exact hex)
  have hone : (1 : Rd ρ) = Rd.of ρ ((((2 ^ J : Int)) : K) / ((2 ^ J : Int) : K)) := by
    rw [div_self (by exact_mod_cast hT0.ne')]
    rfl
  obtain ⟨c, b, v, e3, w⟩ := CS.minCost_ends (imax := imax) (n := P.n + 1) (arcs := s2.edge) (fuel := fuel) hR0 A hone (by omega) (by push_cast; exact le_rfl)
    (by push_cast; exact hJ) T2.made.arcs (by omega) T2.made.cost (by omega) (by
      refine le_trans ?_ ((Nat.le_add_left _ _).trans hf)
      have : 2 * s2.edge.length ≤ 2 * T.toNat := by omega
      unfold CS.minFuelR CS.refFuelR CS.refRoundsR
      gcongr)
  obtain ⟨res, e4⟩ := addMinima_total (imax := imax) (fuel := fuel) hR hf1 s2.parts v T2.parts
  have e3' := (CostScaling.minCostC_er _ _ _ _).to_ok e3
  refine ⟨s1, s2, c, (b, v), if s2.mx < res then none else some res, e1, e2, e3, w, hlen', ?_⟩
  unfold solve
  rw [e1, ok_bind]
  dsimp only
  rw [e2, ok_bind]
  dsimp only
  rw [ck_ok (by omega) (by omega), ok_bind, show ((P.n : Int) + 1).toNat = P.n + 1 by omega, e3', ok_bind]
  dsimp only
  rw [e4, ok_bind]
  split <;> rfl

end SimpleSolver
end AHO
