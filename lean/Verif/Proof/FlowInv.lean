import Verif.Proof.FlowEmb
import Mathlib.Algebra.Order.BigOperators.Group.Finset
import Mathlib.Algebra.Group.Submonoid.BigOperators
import Mathlib.Algebra.BigOperators.Group.Finset.Piecewise
/-!
# Invariants of a phase; `cut`, `link`, pushing along a path
-/

namespace AHO.Flow
open AHO Spec LCT
set_option linter.unusedSectionVars false

variable {K : Type} [Field K] [LinearOrder K] [IsStrictOrderedRing K]
variable {R : Type} [Zero R] [One R] [Add R] [Sub R] [Neg R] [Mul R] [Div R] [IntCast R] [BEq R] [LT R] [LE R]
  [DecidableLT R] [DecidableLE R] {E : FEmb K R} {ed : Vec (OmegaLimit R)} {C : K}

/-- flow leaving `v` -/
def excess (net : Net K) (f : Nat → K) (v : Nat) : K :=
  ∑ e ∈ (Finset.range net.E).filter (fun e => net.src e = v), f e

/-- the current edge of `v` -/
def ce (net : Net K) (s : Flow K) (v : Nat) : Option Nat := (net.out v)[s.currentEdge.get v]?

/-- `e` is an edge of the dynamic forest -/
def Tree (net : Net K) (s : Flow K) (e : Nat) : Prop :=
  e < net.E ∧ s.fa.get (net.src e) ≠ none ∧ ce net s (net.src e) = some e

theorem ce_src {net : Net K} {s : Flow K} {v e} (h : ce net s v = some e) : e < net.E ∧ net.src e = v :=
  Net.mem_out.1 (List.mem_of_getElem? h)

/-- the part of the invariant that is needed for inexact arithmetic -/
structure Ext (E : FEmb K R) (C : K) (net : Net K) (fl im : Vec K) (f : Nat → K) (w : Nat → K) : Prop where
  fU : ∀ e, e < net.E → f e ∈ E.U
  flU : ∀ e, e < net.E → fl.get e ∈ E.U
  wU : ∀ v, v ≤ net.n → w v ∈ E.U
  wC : ∀ v, v ≤ net.n → C ≤ w v + im.get v
  wM : ∀ v, v ≤ net.n → w v ≤ 2 * net.M

/-- Invariant during a phase with half step `h = epsilon / 2`. `f` is the actual flow (`flows` is stale on
the edges of the dynamic forest), `w` the values in the forest, `τ` a topological order of the admissible
edges. -/
structure FInv (E : FEmb K R) (C : K) (net : Net K) (h : Int) (s : Flow K) (f : Nat → K) (w : Nat → K) (τ : Nat → Nat) : Prop where
  st : Static net s
  rep : RepE E.toEmb s.nodes s.fa.get w
  anti : ∀ e, e < net.E → f (e ^^^ 1) = -f e
  bd : ∀ e, e < net.E → f e ≤ net.M
  cons : ∀ v, v ≤ net.n → s.imbalances.get v = -excess net f v
  opt : ∀ e, e < net.E → net.L e (dd net s e - h) ≤ f e
  flA : ∀ e, e < net.E → s.flows.get (e ^^^ 1) = -s.flows.get e
  flB : ∀ e, e < net.E → s.flows.get e ≤ net.M
  tree : ∀ v, v ≤ net.n → ∀ j, s.fa.get v = some j → ∃ e, ce net s v = some e ∧ net.dst e = j ∧
    s.flows.get e < net.L e (dd net s e) ∧ f e = net.L e (dd net s e) - w v ∧ 0 ≤ w v
  non : ∀ e, e < net.E → ¬ Tree net s e → ¬ Tree net s (e ^^^ 1) → s.flows.get e = f e
  cur : ∀ v, v ≤ net.n → ∀ i, i < s.currentEdge.get v → ∀ e, (net.out v)[i]? = some e →
    net.L e (dd net s e) ≤ f e
  rk : ∀ e, e < net.E → f e < net.L e (dd net s e) → τ (net.dst e) < τ (net.src e)
  rkt : ∀ v, v ≤ net.n → ∀ j, s.fa.get v = some j → τ j < τ v
  ext : Ext E C net s.flows s.imbalances f w

section
variable {net : Net K} (ok : net.OK) {h : Int} {s : Flow K} {f w : Nat → K} {τ : Nat → Nat}

theorem FInv.neg_M_le (ok : net.OK) (I : FInv E C net h s f w τ) {e} (he : e < net.E) : -net.M ≤ f e := by
  have := I.bd _ (ok.x_lt e he)
  rw [I.anti e he] at this
  linarith

theorem FInv.flB' (ok : net.OK) (I : FInv E C net h s f w τ) {e} (he : e < net.E) : -net.M ≤ s.flows.get e := by
  have := I.flB _ (ok.x_lt e he)
  rw [I.flA e he] at this
  linarith

/-- bound of the imbalances -/
theorem excess_abs (ok : net.OK) (hM : 0 ≤ net.M) (anti : ∀ e, e < net.E → f (e ^^^ 1) = -f e)
    (bd : ∀ e, e < net.E → f e ≤ net.M) (v : Nat) : |excess net f v| ≤ net.E * net.M := by
  unfold excess
  refine (Finset.abs_sum_le_sum_abs _ _).trans ?_
  have h1 : ∀ e ∈ (Finset.range net.E).filter (fun e => net.src e = v), |f e| ≤ net.M := by
    intro e he
    have he : e < net.E := by simpa using (Finset.mem_filter.1 he).1
    have h1 := bd e he
    have h2 := bd _ (ok.x_lt e he)
    rw [anti e he] at h2
    exact abs_le.2 ⟨by linarith, h1⟩
  refine (Finset.sum_le_card_nsmul _ _ _ h1).trans ?_
  rw [nsmul_eq_mul]
  refine mul_le_mul_of_nonneg_right ?_ hM
  have := Finset.card_filter_le (Finset.range net.E) (fun e => net.src e = v)
  rw [Finset.card_range] at this
  exact_mod_cast this

theorem excess_mem (fU : ∀ e, e < net.E → f e ∈ E.U) (v : Nat) : excess net f v ∈ E.U :=
  sum_mem fun e he => fU e (by simpa using (Finset.mem_filter.1 he).1)

theorem FInv.imb (ok : net.OK) (rm : Room E ed net C) (I : FInv E C net h s f w τ) {v} (hv : v ≤ net.n) :
    |s.imbalances.get v| ≤ net.E * net.M := by
  rw [I.cons v hv, abs_neg]; exact excess_abs ok rm.M0 I.anti I.bd v

theorem FInv.imbU (I : FInv E C net h s f w τ) {v} (hv : v ≤ net.n) : s.imbalances.get v ∈ E.U := by
  rw [I.cons v hv]; exact E.U.neg_mem (excess_mem I.ext.fU v)

theorem FInv.imbI (ok : net.OK) (rm : Room E ed net C) (I : FInv E C net h s f w τ) {v} (hv : v ≤ net.n) :
    E.I (s.imbalances.get v) := rm.imb (I.imbU hv) (I.imb ok rm hv)

theorem FInv.wI (ok : net.OK) (rm : Room E ed net C) (I : FInv E C net h s f w τ) {v} (hv : v ≤ net.n) :
    E.I (w v) := by
  have h1 := abs_le.1 (I.imb ok rm hv)
  have h2 := I.ext.wC v hv
  exact rm.low (I.ext.wU v hv) (by linarith) (I.ext.wM v hv)

theorem FInv.qE (ok : net.OK) (rm : Room E ed net C) (I : FInv E C net h s f w τ) {imax} (po : PotOK net imax s)
    {e} (he : e < net.E) :
    Flow.q imax (E.F ed s) e = .ok (E.e (max 0 (net.L e (dd net s e) - s.flows.get e))) :=
  q_simE ok rm I.st po he (I.flB e he) (I.flB' ok he) (I.ext.flU e he)

theorem FInv.slackI (ok : net.OK) (rm : Room E ed net C) (I : FInv E C net h s f w τ) {e} (he : e < net.E) :
    E.I (max 0 (net.L e (dd net s e) - s.flows.get e)) := by
  have h1 := ok.L_le he (dd net s e)
  have h2 := ok.le_L he (dd net s e)
  have h3 := I.flB e he
  have h4 := I.flB' ok he
  exact rm.max0 (rm.small (E.U.sub_mem (rm.LU he _) (I.ext.flU e he)) (by linarith) (by linarith))

theorem FInv.q (ok : net.OK) (I : FInv E C net h s f w τ) {imax} (po : PotOK net imax s) {e} (he : e < net.E) :
    q imax s e = .ok (max 0 (net.L e (dd net s e) - s.flows.get e)) :=
  q_spec ok I.st po he (I.flB e he) (I.flB' ok he)

theorem FInv.fa_le (ok : net.OK) (I : FInv E C net h s f w τ) {v j} (hv : v ≤ net.n) (hj : s.fa.get v = some j) :
    j ≤ net.n := by
  obtain ⟨e, e1, e2, -⟩ := I.tree v hv j hj
  rw [← e2]; exact ok.dst_le e (ce_src e1).1

/-- what is known about an edge of the forest -/
theorem FInv.treeE (ok : net.OK) (I : FInv E C net h s f w τ) {e} (ht : Tree net s e) :
    s.fa.get (net.src e) = some (net.dst e) ∧ s.flows.get e < net.L e (dd net s e) ∧
      f e = net.L e (dd net s e) - w (net.src e) ∧ 0 ≤ w (net.src e) := by
  obtain ⟨h1, h2, h3⟩ := ht
  obtain ⟨j, hj⟩ := Option.ne_none_iff_exists'.1 h2
  obtain ⟨e', e1, e2, e3, e4, e5⟩ := I.tree _ (ok.src_le e h1) j hj
  rw [h3] at e1
  cases e1
  exact ⟨by rw [hj, e2], e3, e4, e5⟩

theorem FInv.tree_mk (I : FInv E C net h s f w τ) {v j} (hv : v ≤ net.n) (hj : s.fa.get v = some j) :
    ∃ e, Tree net s e ∧ net.src e = v ∧ net.dst e = j ∧ ce net s v = some e := by
  obtain ⟨e, e1, e2, -⟩ := I.tree v hv j hj
  obtain ⟨h1, h2⟩ := ce_src e1
  exact ⟨e, ⟨h1, by rw [h2, hj]; simp, by rw [h2, e1]⟩, h2, e2, e1⟩

theorem FInv.tree_x (ok : net.OK) (I : FInv E C net h s f w τ) {e} (ht : Tree net s e) : ¬ Tree net s (e ^^^ 1) := by
  intro ht'
  have he := ht.1
  have h1 := (I.treeE ok ht).1
  have h2 := (I.treeE ok ht').1
  rw [ok.src_x e he, ok.dst_x e he] at h2
  have k1 := I.rkt _ (ok.src_le e he) _ h1
  have k2 := I.rkt _ (ok.dst_le e he) _ h2
  omega

theorem FInv.onPath (ok : net.OK) (I : FInv E C net h s f w τ) {a b} (ha : a ≤ net.n) (hp : OnPath s.fa.get a b) :
    b ≤ net.n ∧ τ b ≤ τ a := by
  induction hp with
  | refl => exact ⟨ha, le_rfl⟩
  | tail _ hbc ih => exact ⟨I.fa_le ok ih.1 hbc, (I.rkt _ ih.1 _ hbc).le.trans ih.2⟩

/-- reverses of admissible or balanced-from-below edges are not admissible -/
theorem not_adm_x (ok : net.OK) (hanti : ∀ e, e < net.E → f (e ^^^ 1) = -f e) {e} (he : e < net.E)
    (hle : f e ≤ net.L e (dd net s e)) : net.L (e ^^^ 1) (dd net s (e ^^^ 1)) ≤ f (e ^^^ 1) := by
  have := ok.L_x_le he (dd net s e)
  rw [dd_x ok s he, hanti e he]
  linarith

/-! ### `cut` -/

theorem addFlowOfEdge_ok (st : Static net s) (ok : net.OK) {e} (he : e < net.E) (x : K) :
    addFlowOfEdge s e x = .ok { s with flows :=
      (s.flows.set e (s.flows.get e + x)).set (e ^^^ 1) (-(s.flows.get e + x)) } := by
  unfold addFlowOfEdge
  have h1 : e < s.flows.size := by rw [st.flsz]; exact he
  have h2 : e ^^^ 1 < s.flows.size := by rw [st.flsz]; exact ok.x_lt e he
  rw [Vec.rd_ok h1, ok_bind, Vec.wr_ok _ h1, ok_bind, Vec.rd_ok (by exact h1), ok_bind,
    Vec.wr_ok _ (by exact h2), ok_bind]
  simp

theorem FInv.cut (ok : net.OK) (rm : Room E ed net C) (I : FInv E C net h s f w τ) {imax fuel} (po : PotOK net imax s)
    (hfuel : net.n + 2 ≤ fuel) {v j} (hv : v ≤ net.n) (hj : s.fa.get v = some j) :
    ∃ s', Flow.cut imax fuel s v = .ok s' ∧ FInv E C net h s' f w τ ∧ s'.fa = s.fa.set v none ∧
      s'.scaling = s.scaling ∧ s'.imbalances = s.imbalances ∧ s'.uq = s.uq ∧
      s'.currentEdge = s.currentEdge ∧ s'.epsilon = s.epsilon ∧
      Flow.cut imax fuel (E.F ed s) v = .ok (E.F ed s') := by
  obtain ⟨e, et, esrc, edst, ece⟩ := I.tree_mk hv hj
  have he := et.1
  obtain ⟨t1, t2, t3, t4⟩ := I.treeE ok et
  have hvs : v < s.nodes.size := by rw [I.st.nsz]; omega
  obtain ⟨h1, c1, c2, c3, cE⟩ := I.rep.cut (fuel := fuel) hvs (by rw [hj]; simp) (by rw [I.st.nsz]; omega)
  obtain ⟨h2, g1, g2, g3, gE⟩ := c3.getVal (x := v) (fuel := fuel) (by omega) (by rw [c2, I.st.nsz]; omega)
  have hfu : (s.fa.set v none).get = Function.update s.fa.get v none := by
    funext k; simp [Vec.set_get, Function.update_apply]
  -- the result
  let fl' := (s.flows.set e (f e)).set (e ^^^ 1) (-(f e))
  let s' : Flow K := { s with fa := s.fa.set v none, nodes := h2, flows := fl' }
  have hfl : ∀ k, fl'.get k = if k = e ^^^ 1 then -(f e) else if k = e then f e else s.flows.get k := by
    intro k; simp only [fl', Vec.set_get]
  have hst : Static net s' := { I.st with
    nsz := by show h2.size = _; rw [g2, c2, I.st.nsz]
    fsz := I.st.fsz
    flsz := I.st.flsz }
  have hTree : ∀ e', Tree net s' e' ↔ Tree net s e' ∧ e' ≠ e := by
    intro e'
    unfold Tree
    show e' < net.E ∧ (s.fa.set v none).get (net.src e') ≠ none ∧ ce net s (net.src e') = some e' ↔ _
    by_cases hve : net.src e' = v
    · rw [hve]
      simp only [Vec.set_get_self, ne_eq, not_true_eq_false, false_and, and_false, ece,
        Option.some.injEq, hj]
      constructor
      · intro h; exact h.elim
      · rintro ⟨⟨-, -, h⟩, h'⟩; exact h' h.symm
    · rw [Vec.set_get_ne _ _ hve]
      constructor
      · intro h; exact ⟨h, by rintro rfl; exact hve esrc⟩
      · intro h; exact h.1
  have hne := xor_ne e
  have hst1 : Static net { s with fa := s.fa.set v none, nodes := h1 } :=
    { I.st with
      nsz := by show h1.size = _; rw [c2, I.st.nsz]
      fsz := I.st.fsz }
  have hpo : PotOK net imax { s with fa := s.fa.set v none, nodes := h1 } := ⟨po.1, po.2, po.3⟩
  have hst2 : Static net { s with fa := s.fa.set v none, nodes := h2 } :=
    { I.st with
      nsz := by show h2.size = _; rw [g2, c2, I.st.nsz]
      fsz := I.st.fsz }
  have hsum : s.flows.get e + (net.L e (dd net s e) - s.flows.get e - w v) = f e := by
    rw [t3, esrc]; ring
  have hres : addFlowOfEdge { s with fa := s.fa.set v none, nodes := h2 } e
      (net.L e (dd net s e) - s.flows.get e - w v) = .ok s' := by
    rw [addFlowOfEdge_ok hst2 ok he]
    simp only [s', fl', hsum]
  refine ⟨s', ?_, ?_, rfl, rfl, rfl, rfl, rfl, rfl, ?_⟩
  · have hq : Flow.q imax { s with fa := s.fa.set v none, nodes := h1 } e =
        .ok (net.L e (dd net s e) - s.flows.get e) := by
      rw [q_spec ok hst1 hpo he (I.flB e he) (I.flB' ok he)]
      rw [max_eq_right (by show 0 ≤ net.L e (dd net s e) - s.flows.get e; linarith)]
      rfl
    unfold Flow.cut
    rw [Vec.wr_ok _ (by rw [I.st.fsz]; omega), ok_bind]
    dsimp only
    rw [c1, ok_bind]
    rw [Vec.rd_ok (by rw [I.st.gsz]; omega), ok_bind, Vec.rd_ok (by rw [I.st.csz]; omega), ok_bind,
      I.st.g v hv, listRd_eq_ok ece, ok_bind, hq, ok_bind, g1, ok_bind]
    exact hres
  · refine ⟨hst, ?_, I.anti, I.bd, I.cons, I.opt, ?_, ?_, ?_, ?_, I.cur, I.rk, ?_, ⟨I.ext.fU, ?_, I.ext.wU, I.ext.wC, I.ext.wM⟩⟩
    · show RepE E.toEmb h2 (s.fa.set v none).get w
      rw [hfu]; exact g3
    · intro k hk
      show fl'.get (k ^^^ 1) = -fl'.get k
      rw [hfl, hfl]
      by_cases k1 : k = e
      · subst k1; simp [hne.symm]
      · by_cases k2 : k = e ^^^ 1
        · subst k2; rw [xor_xor, if_neg hne.symm, if_pos rfl, if_pos rfl, neg_neg]
        · have k3 : k ^^^ 1 ≠ e := by rintro rfl; simp at k2
          have k4 : k ^^^ 1 ≠ e ^^^ 1 := fun h => k1 (xor_inj h)
          simp [k1, k2, k3, k4, I.flA k hk]
    · intro k hk
      show fl'.get k ≤ net.M
      rw [hfl]
      split
      · have := I.neg_M_le ok he; linarith
      · split
        · exact I.bd e he
        · exact I.flB k hk
    · intro u hu j' hj'
      change (s.fa.set v none).get u = some j' at hj'
      have huv : u ≠ v := by rintro rfl; simp at hj'
      rw [Vec.set_get_ne _ _ huv] at hj'
      obtain ⟨e', e1, e2, e3, e4, e5⟩ := I.tree u hu j' hj'
      obtain ⟨b1, b2⟩ := ce_src e1
      refine ⟨e', e1, e2, ?_, e4, e5⟩
      show fl'.get e' < _
      have k1 : e' ≠ e := by rintro rfl; exact huv (by rw [← b2, esrc])
      have k2 : e' ≠ e ^^^ 1 := by
        rintro rfl
        exact I.tree_x ok et ⟨b1, by rw [b2, hj']; simp, by rw [b2]; exact e1⟩
      rw [hfl, if_neg k2, if_neg k1]
      exact e3
    · intro k hk hk1 hk2
      show fl'.get k = f k
      rw [hTree] at hk1 hk2
      rw [hfl]
      by_cases k2 : k = e ^^^ 1
      · subst k2; rw [if_pos rfl, I.anti e he]
      rw [if_neg k2]
      by_cases k1 : k = e
      · subst k1; rw [if_pos rfl]
      rw [if_neg k1]
      refine I.non k hk (fun hh => hk1 ⟨hh, k1⟩) (fun hh => hk2 ⟨hh, ?_⟩)
      rintro rfl; simp at k2
    · intro u hu j' hj'
      change (s.fa.set v none).get u = some j' at hj'
      have huv : u ≠ v := by rintro rfl; simp at hj'
      rw [Vec.set_get_ne _ _ huv] at hj'
      exact I.rkt u hu j' hj'
    · intro k hk
      show fl'.get k ∈ E.U
      rw [hfl]
      split
      · exact E.U.neg_mem (I.ext.fU e he)
      · split
        · exact I.ext.fU e he
        · exact I.ext.flU k hk
  · have hqE : Flow.q imax (E.F ed { s with fa := s.fa.set v none, nodes := h1 }) e =
        .ok (E.e (net.L e (dd net s e) - s.flows.get e)) := by
      rw [q_simE ok rm hst1 hpo he (I.flB e he) (I.flB' ok he) (I.ext.flU e he)]
      rw [max_eq_right (by show 0 ≤ net.L e (dd net s e) - s.flows.get e; linarith)]
      rfl
    have hfe := I.bd e he
    have hfe' := I.neg_M_le ok he
    have hb := I.flB e he
    have hb' := I.flB' ok he
    have hsub : E.e (net.L e (dd net s e) - s.flows.get e - w v) =
        E.e (net.L e (dd net s e) - s.flows.get e) - E.e (w v) := by
      apply E.sub _ _ (E.U.sub_mem (rm.LU he _) (I.ext.flU e he))
      have : net.L e (dd net s e) - s.flows.get e - w v = f e - s.flows.get e := by rw [← hsum]; ring
      rw [this]
      exact rm.small (E.U.sub_mem (I.ext.fU e he) (I.ext.flU e he)) (by linarith) (by linarith)
    have haE := sim_map (addFlowOfEdge_simE (E := E) (ed := ed) (s := { s with fa := s.fa.set v none, nodes := h2 })
      (e := e) (x := net.L e (dd net s e) - s.flows.get e - w v) (I.ext.flU e he)
      (by
        show E.I (s.flows.get e + _)
        rw [hsum]
        have := rm.M0
        exact rm.small (I.ext.fU e he) (by linarith) (by linarith))) hres
    rw [hsub] at haE
    unfold Flow.cut
    dsimp only [FEmb.F] at hqE haE ⊢
    rw [Vec.wr_ok _ (by rw [I.st.fsz]; omega), ok_bind]
    rw [cE, ok_bind]
    rw [Vec.rd_ok (by rw [I.st.gsz]; omega), ok_bind, Vec.rd_ok (by rw [I.st.csz]; omega), ok_bind,
      I.st.g v hv, listRd_eq_ok ece, ok_bind, hqE, ok_bind, gE, ok_bind]
    exact haE

/-! ### `link` -/

theorem FInv.link (ok : net.OK) (rm : Room E ed net C) (I : FInv E C net h s f w τ) {imax fuel} (po : PotOK net imax s)
    (hfuel : net.n + 2 ≤ fuel) {v e} (hv : v ≤ net.n) (hroot : s.fa.get v = none)
    (hce : ce net s v = some e) (hadm : s.flows.get e < net.L e (dd net s e)) :
    ∃ s' w', Flow.link imax fuel s v = .ok s' ∧ FInv E C net h s' f w' τ ∧
      s'.fa = s.fa.set v (some (net.dst e)) ∧
      s'.scaling = s.scaling ∧ s'.imbalances = s.imbalances ∧ s'.uq = s.uq ∧
      s'.currentEdge = s.currentEdge ∧ s'.epsilon = s.epsilon ∧ f e < net.L e (dd net s e) ∧
      Flow.link imax fuel (E.F ed s) v = .ok (E.F ed s') := by
  obtain ⟨he, hsrc⟩ := ce_src hce
  have hd := ok.dst_le e he
  have hnt : ¬ Tree net s e := by
    rintro ⟨-, h2, -⟩; rw [hsrc] at h2; exact h2 hroot
  have hntx : ¬ Tree net s (e ^^^ 1) := by
    intro ht
    have h1 := (I.treeE ok ht).2.1
    have h2 := ok.L_x_le he (dd net s e)
    rw [I.flA e he, dd_x ok s he] at h1
    linarith
  have hfe := I.non e he hnt hntx
  have hvs : v < s.nodes.size := by rw [I.st.nsz]; omega
  set x := net.L e (dd net s e) - s.flows.get e with hx
  have hxU : x ∈ E.U := E.U.sub_mem (rm.LU he _) (I.ext.flU e he)
  have hx0 : 0 ≤ x := by rw [hx]; linarith
  have hxM : x ≤ 2 * net.M := by
    have := ok.L_le he (dd net s e)
    have := I.flB' ok he
    rw [hx]; linarith
  have hM0 := rm.M0
  obtain ⟨h1, c1, c2, c3, cE⟩ := I.rep.setVal (fuel := fuel) (x := v) x (rm.small hxU (by linarith) hxM) hvs (by rw [I.st.nsz]; omega)
  have hnp : ¬ OnPath s.fa.get (net.dst e) v := by
    intro hp
    have h1 := (I.onPath ok hd hp).2
    have h2 := I.rk e he (by rw [← hfe]; exact hadm)
    rw [hsrc] at h2
    omega
  obtain ⟨h2, g1, g2, g3, gE⟩ := c3.setFa (x := v) (f := net.dst e) (fuel := fuel) (by omega)
    (by rw [c2, I.st.nsz]; omega) hroot hnp (by rw [c2, I.st.nsz]; omega)
  have hfu : (s.fa.set v (some (net.dst e))).get = Function.update s.fa.get v (some (net.dst e)) := by
    funext k; simp [Vec.set_get, Function.update_apply]
  let s' : Flow K := { s with fa := s.fa.set v (some (net.dst e)), nodes := h2 }
  have hst : Static net s' := { I.st with
    nsz := by show h2.size = _; rw [g2, c2, I.st.nsz]
    fsz := I.st.fsz }
  refine ⟨s', Function.update w v x, ?_, ?_, rfl, rfl, rfl, rfl, rfl, rfl, by rw [← hfe]; exact hadm, ?_⟩
  rotate_right
  · have hst1 : Static net { s with fa := s.fa.set v (some (net.dst e)) } :=
      { I.st with fsz := I.st.fsz }
    have hpo : PotOK net imax { s with fa := s.fa.set v (some (net.dst e)) } := ⟨po.1, po.2, po.3⟩
    have hq : Flow.q imax (E.F ed { s with fa := s.fa.set v (some (net.dst e)) }) e = .ok (E.e x) := by
      rw [q_simE ok rm hst1 hpo he (I.flB e he) (I.flB' ok he) (I.ext.flU e he)]
      rw [max_eq_right (by show 0 ≤ net.L e (dd net s e) - s.flows.get e; linarith)]
      rfl
    unfold Flow.link
    dsimp only [FEmb.F] at hq ⊢
    rw [Vec.rd_ok (by rw [I.st.gsz]; omega), ok_bind, Vec.rd_ok (by rw [I.st.csz]; omega), ok_bind,
      I.st.g v hv, listRd_eq_ok hce, ok_bind, Vec.rd_ok (by rw [rm.esz]; exact he), ok_bind,
      rm.ej e he, Vec.wr_ok _ (by rw [I.st.fsz]; omega), ok_bind]
    rw [hq, ok_bind, cE, ok_bind, gE, ok_bind]
  · have hst1 : Static net { s with fa := s.fa.set v (some (net.dst e)) } :=
      { I.st with fsz := I.st.fsz }
    have hpo : PotOK net imax { s with fa := s.fa.set v (some (net.dst e)) } := ⟨po.1, po.2, po.3⟩
    have hq : Flow.q imax { s with fa := s.fa.set v (some (net.dst e)) } e = .ok x := by
      rw [q_spec ok hst1 hpo he (I.flB e he) (I.flB' ok he)]
      rw [max_eq_right (by show 0 ≤ net.L e (dd net s e) - s.flows.get e; linarith)]
      rfl
    unfold Flow.link
    rw [Vec.rd_ok (by rw [I.st.gsz]; omega), ok_bind, Vec.rd_ok (by rw [I.st.csz]; omega), ok_bind,
      I.st.g v hv, listRd_eq_ok hce, ok_bind, Vec.rd_ok (by rw [I.st.esz]; exact he), ok_bind,
      I.st.ej e he, Vec.wr_ok _ (by rw [I.st.fsz]; omega), ok_bind]
    simp only
    rw [hq, ok_bind, c1, ok_bind, g1, ok_bind]
  · have hmono : ∀ e', Tree net s e' → Tree net s' e' := by
      rintro e' ⟨t1, t2, t3⟩
      refine ⟨t1, ?_, t3⟩
      show (s.fa.set v _).get _ ≠ none
      rw [Vec.set_get]
      split
      · simp
      · exact t2
    refine ⟨hst, ?_, I.anti, I.bd, I.cons, I.opt, I.flA, I.flB, ?_, ?_, I.cur, I.rk, ?_, ⟨I.ext.fU, I.ext.flU, ?_, ?_, ?_⟩⟩
    · show RepE E.toEmb h2 (s.fa.set v _).get _
      rw [hfu]; exact g3
    · intro u hu j' hj'
      change (s.fa.set v _).get u = some j' at hj'
      by_cases huv : u = v
      · subst huv
        simp only [Vec.set_get_self, Option.some.injEq] at hj'
        refine ⟨e, hce, hj', hadm, ?_, ?_⟩
        · rw [Function.update_self, ← hfe]
          show _ = net.L e (dd net s e) - x
          rw [hx]; ring
        · rw [Function.update_self, hx]; linarith
      · rw [Vec.set_get_ne _ _ huv] at hj'
        obtain ⟨e', e1, e2, e3, e4, e5⟩ := I.tree u hu j' hj'
        refine ⟨e', e1, e2, e3, ?_, ?_⟩ <;> rw [Function.update_of_ne huv]
        · exact e4
        · exact e5
    · intro k hk hk1 hk2
      exact I.non k hk (fun hh => hk1 (hmono _ hh)) (fun hh => hk2 (hmono _ hh))
    · intro u hu j' hj'
      change (s.fa.set v _).get u = some j' at hj'
      by_cases huv : u = v
      · subst huv
        simp only [Vec.set_get_self, Option.some.injEq] at hj'
        subst hj'
        have := I.rk e he (by rw [← hfe]; exact hadm)
        rwa [hsrc] at this
      · rw [Vec.set_get_ne _ _ huv] at hj'
        exact I.rkt u hu j' hj'
    · intro u hu
      by_cases huv : u = v
      · subst huv; rw [Function.update_self]; exact hxU
      · rw [Function.update_of_ne huv]; exact I.ext.wU u hu
    · intro u hu
      by_cases huv : u = v
      · subst huv; rw [Function.update_self]
        have h1 := abs_le.1 (I.imb ok rm hu)
        have h2 := rm.C_le
        show C ≤ x + s.imbalances.get u
        linarith
      · rw [Function.update_of_ne huv]; exact I.ext.wC u hu
    · intro u hu
      by_cases huv : u = v
      · subst huv; rw [Function.update_self]; exact hxM
      · rw [Function.update_of_ne huv]; exact I.ext.wM u hu

/-! ### Pushing along a path of the forest -/

/-- `e` is a forest edge on the way from `p` to its root -/
def TP (net : Net K) (s : Flow K) (p e : Nat) : Prop := Tree net s e ∧ OnPath s.fa.get p (net.src e)

open Classical in
/-- the flow after sending `x` from `p` to its root -/
noncomputable def pushF (net : Net K) (s : Flow K) (f : Nat → K) (p : Nat) (x : K) (e : Nat) : K :=
  f e + (if TP net s p e then x else 0) - (if TP net s p (e ^^^ 1) then x else 0)

theorem TP_root {r} (hr : s.fa.get r = none) (e : Nat) : ¬ TP net s r e := by
  rintro ⟨⟨-, h2, -⟩, hp⟩
  rcases hp.cases_head with h | ⟨c, hc, -⟩
  · rw [← h] at h2; exact h2 hr
  · rw [Up, hr] at hc; simp at hc

theorem TP_step {a c} (hc : s.fa.get a = some c)
    {ea} (hea : ce net s a = some ea) (e : Nat) : TP net s a e ↔ e = ea ∨ TP net s c e := by
  obtain ⟨e1, e2⟩ := ce_src hea
  constructor
  · rintro ⟨ht, hp⟩
    rcases hp.cases_head with h | ⟨c', hc', hp'⟩
    · left
      have := ht.2.2
      rw [← h, hea] at this
      exact (Option.some.inj this).symm
    · rw [Up, hc] at hc'; cases hc'
      exact .inr ⟨ht, hp'⟩
  · rintro (rfl | ⟨ht, hp⟩)
    · exact ⟨⟨e1, by rw [e2, hc]; simp, by rw [e2, hea]⟩, by rw [e2]⟩
    · exact ⟨ht, .head hc hp⟩

open Classical in
theorem FInv.excess_pushF (ok : net.OK) (I : FInv E C net h s f w τ) {p r} (hp : p ≤ net.n)
    (hpath : OnPath s.fa.get p r) (hr : s.fa.get r = none) (x : K) (v : Nat) :
    excess net (pushF net s f p x) v =
      excess net f v + (if v = p then x else 0) - (if v = r then x else 0) := by
  induction hpath using Relation.ReflTransGen.head_induction_on with
  | refl =>
    have : pushF net s f r x = f := by
      funext e; simp [pushF, TP_root hr]
    rw [this]; ring
  | @head a c hac hcr ih =>
    have hc' := I.fa_le ok hp hac
    have ih := ih hc'
    obtain ⟨ea, et, esrc, edst, ece⟩ := I.tree_mk hp hac
    have hnc : ¬ TP net s c ea := by
      rintro ⟨-, hp'⟩
      rw [esrc] at hp'
      have h1 := (I.onPath ok hc' hp').2
      have h2 := I.rkt a hp c hac
      omega
    have key : ∀ e, pushF net s f a x e = pushF net s f c x e + (if e = ea then x else 0) -
        (if e = ea ^^^ 1 then x else 0) := by
      intro e
      unfold pushF
      have e1 := TP_step hac ece e
      have e2 := TP_step hac ece (e ^^^ 1)
      have e3 : (e ^^^ 1 = ea) ↔ e = ea ^^^ 1 := by
        constructor
        · rintro rfl; simp
        · rintro rfl; simp
      have a1 : (if TP net s a e then x else 0) = (if TP net s c e then x else 0) + (if e = ea then x else 0) := by
        by_cases h1 : e = ea
        · subst h1; simp [e1, hnc]
        · simp [e1, h1]
      have a2 : (if TP net s a (e ^^^ 1) then x else 0) =
          (if TP net s c (e ^^^ 1) then x else 0) + (if e = ea ^^^ 1 then x else 0) := by
        by_cases h1 : e = ea ^^^ 1
        · subst h1; rw [xor_xor] at e2 ⊢; simp [e2, hnc]
        · have h1' : e ^^^ 1 ≠ ea := fun h => h1 (e3.1 h)
          simp [e2, h1, h1']
      rw [a1, a2]; ring
    have hs1 : ∑ e ∈ (Finset.range net.E).filter (fun e => net.src e = v), (if e = ea then x else 0) =
        if v = a then x else 0 := by
      rw [Finset.sum_ite_eq']
      simp only [Finset.mem_filter, Finset.mem_range, et.1, esrc, true_and]
      simp only [eq_comm]
    have hs2 : ∑ e ∈ (Finset.range net.E).filter (fun e => net.src e = v), (if e = ea ^^^ 1 then x else 0) =
        if v = c then x else 0 := by
      rw [Finset.sum_ite_eq']
      simp only [Finset.mem_filter, Finset.mem_range, ok.x_lt ea et.1, ok.src_x ea et.1, edst, true_and]
      simp only [eq_comm]
    have : excess net (pushF net s f a x) v = excess net (pushF net s f c x) v + (if v = a then x else 0) -
        (if v = c then x else 0) := by
      unfold excess
      rw [← hs1, ← hs2, ← Finset.sum_add_distrib, ← Finset.sum_sub_distrib]
      exact Finset.sum_congr rfl fun e _ => key e
    rw [this, ih]
    ring

theorem root_unique {par : Nat → Option Nat} {a r r' : Nat} (h1 : OnPath par a r) (hr : par r = none)
    (h2 : OnPath par a r') (hr' : par r' = none) : r = r' := by
  induction h1 using Relation.ReflTransGen.head_induction_on with
  | refl =>
    rcases h2.cases_head with h | ⟨c, hc, -⟩
    · exact h
    · rw [Up, hr] at hc; simp at hc
  | @head a c hac _ ih =>
    rcases h2.cases_head with h | ⟨c', hc', h2⟩
    · rw [Up, h, hr'] at hac; simp at hac
    · rw [Up] at hac hc'; rw [hac] at hc'; cases hc'; exact ih h2

open Classical in
/-- Sending `x` from `p` to its root `r` (`add_val_way_to_root` and the changes of `imbalances`). -/
theorem FInv.push (ok : net.OK) (rm : Room E ed net C) (I : FInv E C net h s f w τ) (hh : 0 ≤ h) {fuel} (hfuel : net.n + 2 ≤ fuel) {p r} (hp : p ≤ net.n)
    (hpath : OnPath s.fa.get p r) (hr : s.fa.get r = none) (hne : p ≠ r) {x : K} (hx : 0 ≤ x) (hxU : x ∈ E.U)
    (hmin : ∀ v, OnPath s.fa.get p v → s.fa.get v ≠ none → x ≤ w v) :
    ∃ h1, addValWayToRoot fuel s.nodes p (-x) = .ok h1 ∧
      FInv E C net h { s with
        nodes := h1
        imbalances := (s.imbalances.set p (s.imbalances.get p - x)).set r (s.imbalances.get r + x) }
        (pushF net s f p x) (fun v => if OnPath s.fa.get p v then w v + -x else w v) τ ∧
      (∀ e, e < net.E → pushF net s f p x e < net.L e (dd net s e) → f e < net.L e (dd net s e)) ∧
      addValWayToRoot fuel (E.h s.nodes) p (E.e (-x)) = .ok (E.h h1) := by
  have hrn := (I.onPath ok hp hpath).1
  -- values of the new flow
  have v0 : ∀ e, ¬ TP net s p e → ¬ TP net s p (e ^^^ 1) → pushF net s f p x e = f e := by
    intro e h1 h2; simp [pushF, h1, h2]
  have v1 : ∀ e, TP net s p e → pushF net s f p x e = f e + x := by
    intro e h1
    have h2 : ¬ TP net s p (e ^^^ 1) := fun h => I.tree_x ok h1.1 h.1
    simp [pushF, h1, h2]
  have v2 : ∀ e, TP net s p (e ^^^ 1) → pushF net s f p x e = f e - x := by
    intro e h1
    have h2 : ¬ TP net s p e := fun h => I.tree_x ok h.1 h1.1
    simp [pushF, h1, h2]
  have hanti : ∀ e, e < net.E → pushF net s f p x (e ^^^ 1) = -pushF net s f p x e := by
    intro e he
    unfold pushF
    rw [I.anti e he, xor_xor]; ring
  -- forest edges stay below their slope
  have hle : ∀ e, TP net s p e → pushF net s f p x e ≤ net.L e (dd net s e) := by
    intro e h1
    obtain ⟨t1, t2, t3, t4⟩ := I.treeE ok h1.1
    have := hmin _ h1.2 h1.1.2.1
    rw [v1 e h1, t3]; linarith
  have hxn : ∀ e, e < net.E → TP net s p (e ^^^ 1) →
      net.L e (dd net s e) ≤ pushF net s f p x e := by
    intro e he h1
    have := not_adm_x (s := s) ok hanti (ok.x_lt e he) (hle _ h1)
    rwa [xor_xor] at this
  have hcmp : ∀ e, e < net.E → ¬ TP net s p (e ^^^ 1) → f e ≤ pushF net s f p x e := by
    intro e he h1
    by_cases h2 : TP net s p e
    · rw [v1 e h2]; linarith
    · rw [v0 e h2 h1]
  have hadm : ∀ e, e < net.E → pushF net s f p x e < net.L e (dd net s e) → f e < net.L e (dd net s e) := by
    intro e he h1
    by_cases h2 : TP net s p (e ^^^ 1)
    · exact absurd h1 (not_lt.2 (hxn e he h2))
    · exact (hcmp e he h2).trans_lt h1
  have hge : ∀ e, e < net.E → ∀ y : Int, y ≤ dd net s e → net.L e y ≤ f e → net.L e y ≤ pushF net s f p x e := by
    intro e he y hy h1
    by_cases h2 : TP net s p (e ^^^ 1)
    · exact (ok.L_mono he hy).trans (hxn e he h2)
    · exact h1.trans (hcmp e he h2)
  have hfU : ∀ e, e < net.E → pushF net s f p x e ∈ E.U := by
    intro e he
    by_cases h1 : TP net s p e
    · rw [v1 e h1]; exact E.U.add_mem (I.ext.fU e he) hxU
    · by_cases h2 : TP net s p (e ^^^ 1)
      · rw [v2 e h2]; exact E.U.sub_mem (I.ext.fU e he) hxU
      · rw [v0 e h1 h2]; exact I.ext.fU e he
  have hbd : ∀ e, e < net.E → pushF net s f p x e ≤ net.M := by
    intro e he
    by_cases h1 : TP net s p e
    · exact (hle e h1).trans (ok.L_le he _)
    · by_cases h2 : TP net s p (e ^^^ 1)
      · rw [v2 e h2]; have := I.bd e he; linarith
      · rw [v0 e h1 h2]; exact I.bd e he
  set im := (s.imbalances.set p (s.imbalances.get p - x)).set r (s.imbalances.get r + x) with him
  have hcons : ∀ v, v ≤ net.n → im.get v = -excess net (pushF net s f p x) v := by
    intro v hv
    rw [I.excess_pushF ok hp hpath hr]
    have := I.cons v hv
    rw [him, Vec.set_get, Vec.set_get]
    by_cases h1 : v = r
    · subst h1
      rw [if_pos rfl, if_neg (fun h => hne h.symm), if_pos rfl, this]; ring
    · rw [if_neg h1]
      by_cases h2 : v = p
      · subst h2; rw [if_pos rfl, if_pos rfl, if_neg h1, this]; ring
      · rw [if_neg h2, if_neg h2, if_neg h1, this]; ring
  have himb : ∀ v, v ≤ net.n → |im.get v| ≤ net.E * net.M := by
    intro v hv
    rw [hcons v hv, abs_neg]
    exact excess_abs ok rm.M0 hanti hbd v
  have hpn : s.fa.get p ≠ none := by
    intro h0
    rcases hpath.cases_head with h | ⟨c, hc, -⟩
    · exact hne h
    · rw [Up, h0] at hc; simp at hc
  have hwU : ∀ v, v ≤ net.n → w v + -x ∈ E.U := fun v hv => E.U.add_mem (I.ext.wU v hv) (E.U.neg_mem hxU)
  have hwC : ∀ v, OnPath s.fa.get p v → C ≤ w v + -x + im.get v := by
    intro v hv
    have hvn := (I.onPath ok hp hv).1
    by_cases h0 : s.fa.get v = none
    · have hvr : v = r := root_unique hv h0 hpath hr
      subst hvr
      rw [him, Vec.set_get_self]
      have := I.ext.wC v hvn
      linarith
    · have h1 := hmin v hv h0
      have h2 := abs_le.1 (himb v hvn)
      have h3 := rm.C_le
      linarith
  have hwI : ∀ v, OnPath s.fa.get p v → E.I (w v + -x) := by
    intro v hv
    have hvn := (I.onPath ok hp hv).1
    have h2 := abs_le.1 (himb v hvn)
    have h3 := hwC v hv
    have h4 := I.ext.wM v hvn
    exact rm.low (hwU v hvn) (by linarith) (by linarith)
  obtain ⟨h1, a1, a2, a3, aE⟩ := I.rep.addVal (x := p) (fuel := fuel) (-x) (by rw [I.st.nsz]; omega) hwI
    (by rw [I.st.nsz]; omega)
  refine ⟨h1, a1, ⟨?_, a3, hanti, hbd, hcons, ?_, I.flA, I.flB, ?_, ?_, ?_, ?_, I.rkt, ⟨hfU, I.ext.flU, ?_, ?_, ?_⟩⟩, hadm, aE⟩
  · exact { I.st with
      nsz := by show h1.size = _; rw [a2, I.st.nsz]
      isz := I.st.isz }
  · intro e he
    exact hge e he _ (by show dd net s e - h ≤ _; omega) (I.opt e he)
  · intro v hv j hj
    change s.fa.get v = some j at hj
    obtain ⟨e, e1, e2, e3, e4, e5⟩ := I.tree v hv j hj
    obtain ⟨b1, b2⟩ := ce_src e1
    have ht : Tree net s e := ⟨b1, by rw [b2, hj]; simp, by rw [b2]; exact e1⟩
    refine ⟨e, e1, e2, e3, ?_, ?_⟩
    · show pushF net s f p x e = net.L e (dd net s e) - _
      by_cases hpv : OnPath s.fa.get p v
      · rw [v1 e ⟨ht, by rw [b2]; exact hpv⟩, e4, if_pos hpv]; ring
      · rw [v0 e (fun h => hpv (by rw [← b2]; exact h.2)) (fun h => I.tree_x ok ht h.1), e4, if_neg hpv]
    · by_cases hpv : OnPath s.fa.get p v
      · simp only [hpv, if_true]
        have := hmin v hpv (by rw [hj]; simp)
        linarith
      · simp only [hpv, if_false]; exact e5
  · intro e he h1 h2
    rw [v0 e (fun h => h1 h.1) (fun h => h2 h.1)]
    exact I.non e he h1 h2
  · intro v hv i hi e hie
    obtain ⟨b1, b2⟩ := Net.mem_out.1 (List.mem_of_getElem? hie)
    exact hge e b1 _ le_rfl (I.cur v hv i hi e hie)
  · intro e he h1
    exact I.rk e he (hadm e he h1)
  · intro v hv
    split
    · exact hwU v hv
    · exact I.ext.wU v hv
  · intro v hv
    show C ≤ (if OnPath s.fa.get p v then w v + -x else w v) + im.get v
    by_cases hpv : OnPath s.fa.get p v
    · rw [if_pos hpv]; exact hwC v hpv
    · rw [if_neg hpv]
      have h1 : v ≠ r := by rintro rfl; exact hpv hpath
      have h2 : v ≠ p := by rintro rfl; exact hpv .refl
      rw [him, Vec.set_get_ne _ _ h1, Vec.set_get_ne _ _ h2]
      exact I.ext.wC v hv
  · intro v hv
    have := I.ext.wM v hv
    split
    · linarith
    · exact this

end
end AHO.Flow
