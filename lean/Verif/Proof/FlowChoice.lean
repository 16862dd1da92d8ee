import Verif.Proof.FlowSend
import Mathlib.Data.Finset.Lattice.Fold
/-!
# `Flow::choice_operator` and `Flow::update_scaling`
-/

namespace AHO.Flow
open AHO Spec LCT
set_option linter.unusedSectionVars false

variable {K : Type} [Field K] [LinearOrder K] [IsStrictOrderedRing K]
variable {R : Type} [Zero R] [One R] [Add R] [Sub R] [Neg R] [Mul R] [Div R] [IntCast R] [BEq R] [LT R] [LE R]
  [DecidableLT R] [DecidableLE R] {E : FEmb K R} {ed : Vec (OmegaLimit R)} {C : K}
variable {net : Net K} {h : Int} {s : Flow K} {f w : Nat → K} {τ : Nat → Nat}

/-! ### Relabelling -/

theorem Net.OK.out_x (ok : net.OK) {e p} (he : e < net.E) (hd : net.dst e = p) : e ^^^ 1 ∈ net.out p := by
  rw [Net.mem_out]; exact ⟨ok.x_lt e he, by rw [ok.src_x e he, hd]⟩

theorem FInv.child (ok : net.OK) (I : FInv E C net h s f w τ) {c p} (hc : c ≤ net.n) (hp : s.fa.get c = some p) :
    ∃ e ∈ net.out p, net.dst e = c := by
  obtain ⟨e, et, esrc, edst, ece⟩ := I.tree_mk hc hp
  exact ⟨e ^^^ 1, ok.out_x et.1 edst, by rw [ok.dst_x e et.1, esrc]⟩

theorem SInv.cutChildren (ok : net.OK) (rm : Room E ed net C) {p imax fuel} (hfuel : net.n + 2 ≤ fuel) :
    ∀ (es : List Nat) (s : Flow K), (∀ e ∈ es, e < net.E) → SInv E C net h s f w τ p → PotOK net imax s →
      s.fa.get p = none →
      ∃ s', cutChildren imax fuel p es s = .ok s' ∧ SInv E C net h s' f w τ p ∧ Same s s' ∧
        s'.imbalances = s.imbalances ∧ s'.fa.get p = none ∧
        LS net s' f ⊆ LS net s f ∧ (rts net s').card ≤ (rts net s).card + es.length ∧
        (∀ v, s'.fa.get v = some p → s.fa.get v = some p ∧ ∀ e ∈ es, net.dst e ≠ v) ∧
        Flow.cutChildren imax fuel p es (E.F ed s) = .ok (E.F ed s') := by
  intro es
  induction es with
  | nil => intro s _ S _ hr; exact ⟨s, rfl, S, .refl, rfl, hr, fun _ h => h, by simp, fun v hv => ⟨hv, by simp⟩, rfl⟩
  | cons e es ih =>
    intro s hes S po hr
    have he := hes e (by simp)
    have hd := ok.dst_le e he
    unfold Flow.cutChildren
    simp only [FEmb.F_edges, FEmb.F_fa]
    rw [Vec.rd_ok (by rw [S.I.st.esz]; exact he), ok_bind, S.I.st.ej e he,
      Vec.rd_ok (v := ed) (by rw [rm.esz]; exact he)]
    simp only [ok_bind]
    rw [rm.ej e he, Vec.rd_ok (by rw [S.I.st.fsz]; omega)]
    simp only [ok_bind]
    by_cases hfa : s.fa.get (net.dst e) = some p
    · rw [if_pos hfa, if_pos hfa]
      obtain ⟨s1, c1, c2, c3, c4, c5, c6, c7, -, cE⟩ := S.cutRoot ok rm po hfuel hd (by rw [hfa]; simp)
      rw [c1, ok_bind, cE, ok_bind]
      obtain ⟨s2, d1, d2, d3, d4, d5, dL, dr, d6, dE⟩ := ih s1 (fun e he => hes e (by simp [he])) c2 (c3.po po)
        (by rw [c4, Vec.set_get]; split <;> simp [hr])
      refine ⟨s2, d1, d2, c3.trans d3, d4.trans c5, d5, dL.trans c7, by rw [List.length_cons]; omega, fun v hv => ?_, dE⟩
      obtain ⟨g1, g2⟩ := d6 v hv
      rw [c4, Vec.set_get] at g1
      by_cases hvd : v = net.dst e
      · simp [hvd] at g1
      · rw [if_neg hvd] at g1
        refine ⟨g1, fun e' he' => ?_⟩
        rcases List.mem_cons.1 he' with rfl | he'
        · exact fun h => hvd h.symm
        · exact g2 e' he'
    · rw [if_neg hfa, if_neg hfa]
      obtain ⟨s2, d1, d2, d3, d4, d5, dL, dr, d6, dE⟩ := ih s (fun e he => hes e (by simp [he])) S po hr
      refine ⟨s2, d1, d2, d3, d4, d5, dL, by rw [List.length_cons]; omega, fun v hv => ?_, dE⟩
      obtain ⟨g1, g2⟩ := d6 v hv
      refine ⟨g1, fun e' he' => ?_⟩
      rcases List.mem_cons.1 he' with rfl | he'
      · rintro rfl; exact hfa g1
      · exact g2 e' he'

/-- the topological order after relabelling `p` -/
def tau' (net : Net K) (τ : Nat → Nat) (p : Nat) : Nat → Nat :=
  Function.update τ p (1 + (Finset.range (net.n + 1)).sup τ)

theorem tau'_lt {p v} (hv : v ≤ net.n) (hne : v ≠ p) : tau' net τ p v < tau' net τ p p := by
  unfold tau'
  rw [Function.update_self, Function.update_of_ne hne]
  have := Finset.le_sup (f := τ) (show v ∈ Finset.range (net.n + 1) by simp; omega)
  omega

theorem FInv.relabel (ok : net.OK) (I : FInv E C net h s f w τ) (hh : 0 ≤ h) {p} (hroot : s.fa.get p = none)
    (hleaf : ∀ v, v ≤ net.n → s.fa.get v ≠ some p)
    (hcur : ∀ e ∈ net.out p, net.L e (dd net s e) ≤ f e) :
    FInv E C net h { s with
      scaling := s.scaling.set p (s.scaling.get p + h)
      currentEdge := s.currentEdge.set p 0 } f w (tau' net τ p) := by
  set s' : Flow K := { s with
      scaling := s.scaling.set p (s.scaling.get p + h)
      currentEdge := s.currentEdge.set p 0 } with hs'
  have d1 : ∀ e, net.src e ≠ p → net.dst e ≠ p → dd net s' e = dd net s e := by
    intro e h1 h2
    simp only [dd, hs', Vec.set_get_ne _ _ h1, Vec.set_get_ne _ _ h2]
  have d2 : ∀ e, e < net.E → net.src e = p → dd net s' e = dd net s e + h := by
    intro e he h1
    have h2 : net.dst e ≠ p := by rw [← h1]; exact (ok.ne e he).symm
    simp only [dd, hs', Vec.set_get_ne _ _ h2, h1, Vec.set_get_self]; ring
  have d3 : ∀ e, e < net.E → net.dst e = p → dd net s' e = dd net s e - h := by
    intro e he h1
    have h2 : net.src e ≠ p := by rw [← h1]; exact (ok.ne e he)
    simp only [dd, hs', Vec.set_get_ne _ _ h2, h1, Vec.set_get_self]; ring
  have hce : ∀ v, v ≠ p → ce net s' v = ce net s v := by
    intro v hv; simp only [ce, hs', Vec.set_get_ne _ _ hv]
  have hT : ∀ e, Tree net s' e ↔ Tree net s e := by
    intro e
    unfold Tree
    by_cases h1 : net.src e = p
    · rw [h1]; simp [hs', hroot]
    · rw [hce _ h1]
  refine ⟨{ I.st with csz := I.st.csz, ssz := I.st.ssz }, I.rep, I.anti, I.bd, I.cons, ?_, I.flA, I.flB, ?_, ?_, ?_, ?_, ?_, I.ext⟩
  · intro e he
    by_cases h1 : net.src e = p
    · rw [d2 e he h1, add_sub_cancel_right]
      exact hcur e (by rw [Net.mem_out]; exact ⟨he, h1⟩)
    · by_cases h2 : net.dst e = p
      · rw [d3 e he h2]; exact (ok.L_mono he (by omega)).trans (I.opt e he)
      · rw [d1 e h1 h2]; exact I.opt e he
  · intro v hv j hj
    change s.fa.get v = some j at hj
    have hvp : v ≠ p := by rintro rfl; rw [hroot] at hj; simp at hj
    have hjp : j ≠ p := by rintro rfl; exact hleaf v hv hj
    obtain ⟨e, e1, e2, e3, e4, e5⟩ := I.tree v hv j hj
    obtain ⟨b1, b2⟩ := ce_src e1
    refine ⟨e, by rw [hce v hvp]; exact e1, e2, ?_⟩
    rw [d1 e (by rw [b2]; exact hvp) (by rw [e2]; exact hjp)]
    exact ⟨e3, e4, e5⟩
  · intro e he h1 h2
    rw [hT] at h1 h2
    exact I.non e he h1 h2
  · intro v hv i hi e hie
    obtain ⟨b1, b2⟩ := Net.mem_out.1 (List.mem_of_getElem? hie)
    by_cases hvp : v = p
    · subst hvp; simp [hs'] at hi
    · change i < (s.currentEdge.set p 0).get v at hi
      rw [Vec.set_get_ne _ _ hvp] at hi
      have := I.cur v hv i hi e hie
      by_cases h2 : net.dst e = p
      · rw [d3 e b1 h2]; exact (ok.L_mono b1 (by omega)).trans this
      · rw [d1 e (by rw [b2]; exact hvp) h2]; exact this
  · intro e he hlt
    by_cases h2 : net.dst e = p
    · rw [d3 e he h2] at hlt
      exact absurd hlt (not_lt.2 (I.opt e he))
    · by_cases h1 : net.src e = p
      · rw [h1]; exact tau'_lt (ok.dst_le e he) h2
      · rw [d1 e h1 h2] at hlt
        simp only [tau', Function.update_of_ne h1, Function.update_of_ne h2]
        exact I.rk e he hlt
  · intro v hv j hj
    change s.fa.get v = some j at hj
    have hvp : v ≠ p := by rintro rfl; rw [hroot] at hj; simp at hj
    have hjp : j ≠ p := by rintro rfl; exact hleaf v hv hj
    simp only [tau', Function.update_of_ne hvp, Function.update_of_ne hjp]
    exact I.rkt v hv j hj

/-- Relabelling `p` makes at most the edges which leave `p` admissible. -/
theorem LS_relabel (ok : net.OK) (hh : 0 ≤ h) (I : FInv E C net h s f w τ) {p} (hroot : s.fa.get p = none) :
    (LS net { s with
      scaling := s.scaling.set p (s.scaling.get p + h)
      currentEdge := s.currentEdge.set p 0 } f).card ≤ (LS net s f).card + (net.out p).length := by
  set s' : Flow K := { s with
      scaling := s.scaling.set p (s.scaling.get p + h)
      currentEdge := s.currentEdge.set p 0 } with hs'
  have hsub : LS net s' f ⊆ LS net s f ∪ (net.out p).toFinset := by
    intro e he
    simp only [LS, Finset.mem_filter, Finset.mem_range, Finset.mem_union, List.mem_toFinset] at he ⊢
    by_cases h1 : net.src e = p
    · exact .inr (Net.mem_out.2 ⟨he.1, h1⟩)
    · refine .inl ⟨he.1, he.2.imp (fun hlt => ?_) fun ht => ?_⟩
      · refine hlt.trans_le (ok.L_mono he.1 ?_)
        simp only [dd, hs', Vec.set_get, if_neg h1]
        split
        · rename_i h2; rw [h2]; omega
        · exact le_rfl
      · obtain ⟨t1, t2, t3⟩ := ht
        refine ⟨t1, t2, ?_⟩
        simp only [ce, hs', Vec.set_get_ne _ _ h1] at t3
        exact t3
  refine (Finset.card_le_card hsub).trans ((Finset.card_union_le _ _).trans ?_)
  exact Nat.add_le_add_left (List.toFinset_card_le _) _

/-! ### Advancing the current edge -/

theorem FInv.advance (I : FInv E C net h s f w τ) {p e} (hroot : s.fa.get p = none)
    (hce : ce net s p = some e) (hle : net.L e (dd net s e) ≤ f e) :
    FInv E C net h { s with currentEdge := s.currentEdge.set p (s.currentEdge.get p + 1) } f w τ ∧
      LS net { s with currentEdge := s.currentEdge.set p (s.currentEdge.get p + 1) } f = LS net s f := by
  set s' : Flow K := { s with currentEdge := s.currentEdge.set p (s.currentEdge.get p + 1) } with hs'
  have hce' : ∀ v, v ≠ p → ce net s' v = ce net s v := by
    intro v hv; simp only [ce, hs', Vec.set_get_ne _ _ hv]
  have hT : ∀ e, Tree net s' e ↔ Tree net s e := by
    intro e
    unfold Tree
    by_cases h1 : net.src e = p
    · rw [h1]; simp [hs', hroot]
    · rw [hce' _ h1]
  refine ⟨⟨{ I.st with csz := I.st.csz }, I.rep, I.anti, I.bd, I.cons, I.opt, I.flA, I.flB, ?_, ?_, ?_, I.rk, I.rkt, I.ext⟩, ?_⟩
  · intro v hv j hj
    have hvp : v ≠ p := by rintro rfl; rw [show s'.fa = s.fa from rfl, hroot] at hj; simp at hj
    rw [hce' v hvp]
    exact I.tree v hv j hj
  · intro e he h1 h2
    rw [hT] at h1 h2
    exact I.non e he h1 h2
  · intro v hv i hi e' hie
    change i < (s.currentEdge.set p _).get v at hi
    by_cases hvp : v = p
    · subst hvp
      rw [Vec.set_get_self] at hi
      by_cases hlt : i < s.currentEdge.get v
      · exact I.cur v hv i hlt e' hie
      · have : i = s.currentEdge.get v := by omega
        subst this
        unfold ce at hce
        rw [hce] at hie
        cases hie
        exact hle
    · rw [Vec.set_get_ne _ _ hvp] at hi
      exact I.cur v hv i hi e' hie
  · ext e'
    simp only [LS, Finset.mem_filter, hT]
    rfl

/-- what one call of `choice_operator(p)` achieves -/
structure Chosen (E : FEmb K R) (C : K) (net : Net K) (h : Int) (s0 s : Flow K) (f0 f w : Nat → K) (τ : Nat → Nat) (p : Nat) : Prop where
  S : SInv E C net h s f w τ p
  actp : 0 < s.imbalances.get p → s.fa.get p = none
  ep : s.epsilon = s0.epsilon
  prog : (s.scaling = s0.scaling ∧ psi net s f < psi net s0 f0) ∨
    s.scaling = s0.scaling.set p (s0.scaling.get p + h) ∧ psi net s f ≤ psi net s0 f0 + 3 * (net.out p).length
  imb : ∀ v, v ≤ net.n → v ≠ p → s0.imbalances.get v ≤ s.imbalances.get v

theorem SInv.updateScaling (ok : net.OK) (rm : Room E ed net C) (hh : 0 ≤ h) {p imax fuel} (hfuel : net.n + 2 ≤ fuel) (hp : p ≤ net.n)
    (S : SInv E C net h s f w τ p) (po : PotOK net imax s) (hroot : s.fa.get p = none)
    (hcur : (net.out p).length ≤ s.currentEdge.get p) (hep : s.epsilon.tdiv 2 = h)
    (hov : s.scaling.get p + h ≤ imax) :
    ∃ s' τ', updateScaling imax fuel s p = .ok s' ∧ Chosen E C net h s s' f f w τ' p ∧
      Flow.updateScaling imax fuel (E.F ed s) p = .ok (E.F ed s') := by
  unfold Flow.updateScaling
  simp only [FEmb.F_G]
  rw [Vec.rd_ok (by rw [S.I.st.gsz]; omega), ok_bind, ok_bind, S.I.st.g p hp]
  obtain ⟨s1, c1, c2, c3, c4, c5, cL, cr, c6, cE⟩ := SInv.cutChildren ok rm hfuel (net.out p) s
    (fun e he => (Net.mem_out.1 he).1) S po hroot
  have h0 := po.nonneg p hp
  rw [c1, ok_bind, cE, ok_bind]
  simp only [FEmb.F_scaling, FEmb.F_epsilon, FEmb.F_currentEdge]
  rw [Vec.rd_ok (by rw [c2.I.st.ssz]; omega), ok_bind, ok_bind, c3.ep, hep, c3.sc,
    ck_ok (by omega) hov, ok_bind, ok_bind, Vec.wr_ok _ (by rw [S.I.st.ssz]; omega), ok_bind, ok_bind,
    Vec.wr_ok _ (by rw [c2.I.st.csz]; omega), ok_bind, ok_bind]
  have hI := c2.I.relabel ok hh c5
    (by
      intro v hv hv'
      obtain ⟨e, e1, e2⟩ := c2.I.child ok hv hv'
      exact (c6 v hv').2 e e1 e2)
    (by
      intro e he
      obtain ⟨i, hi, rfl⟩ := List.getElem_of_mem he
      exact c2.I.cur p hp i (by rw [c3.ce]; omega) _ (by simp))
  refine ⟨_, tau' net τ p, rfl, ⟨⟨?_, c2.uok, c2.front, c2.pn, c2.act, c2.mem⟩, fun _ => c5, rfl, .inr ⟨rfl, ?_⟩, ?_⟩, rfl⟩
  · rw [c3.sc, c3.ep] at hI
    exact hI
  · have := LS_relabel ok hh c2.I c5
    rw [c3.sc] at this
    have := (this.trans (Nat.add_le_add_right (Finset.card_le_card cL) _))
    refine (Nat.add_le_add_right (Nat.mul_le_mul_left 2 this) (rts net s1).card).trans ?_
    unfold psi
    omega
  · intro v hv hvp
    change _ ≤ s1.imbalances.get v
    rw [c4]

theorem rts_link {s s' : Flow K} {v j} (hfa : s'.fa = s.fa.set v (some j)) (hv : v ≤ net.n) (h0 : s.fa.get v = none) :
    (rts net s').card + 1 = (rts net s).card := by
  have : rts net s = insert v (rts net s') := by
    ext u
    simp only [rts, Finset.mem_filter, Finset.mem_range, Finset.mem_insert, hfa, Vec.set_get]
    by_cases hu : u = v
    · simp [hu, h0]; omega
    · simp [hu]
  rw [this, Finset.card_insert_of_notMem]
  simp [rts, hfa]

theorem SInv.choiceLoop (ok : net.OK) (rm : Room E ed net C) (hh : 0 ≤ h) {p imax fuel0} (hfuel0 : net.n + 2 ≤ fuel0) (hp : p ≤ net.n) :
    ∀ (fuel : Nat) (s : Flow K), SInv E C net h s f w τ p → PotOK net imax s → s.fa.get p = none →
      (net.out p).length < fuel + s.currentEdge.get p → 0 < fuel → s.epsilon.tdiv 2 = h →
      s.scaling.get p + h ≤ imax →
      ∃ s' f' w' τ', choiceLoop imax fuel0 p fuel s = .ok s' ∧ Chosen E C net h s s' f f' w' τ' p ∧
        Flow.choiceLoop imax fuel0 p fuel (E.F ed s) = .ok (E.F ed s') := by
  intro fuel
  induction fuel with
  | zero => intro s _ _ _ _ h0; omega
  | succ fuel ih =>
    intro s S po hroot hf _ hep hov
    unfold Flow.choiceLoop
    simp only [FEmb.F_currentEdge, FEmb.F_G]
    rw [Vec.rd_ok (by rw [S.I.st.csz]; omega), ok_bind, ok_bind, Vec.rd_ok (by rw [S.I.st.gsz]; omega), ok_bind,
      ok_bind, S.I.st.g p hp]
    by_cases hk : s.currentEdge.get p < (net.out p).length
    · rw [if_pos hk, if_pos hk, listRd_ok hk, ok_bind, ok_bind]
      set e := (net.out p)[s.currentEdge.get p] with he
      have hce : ce net s p = some e := by simp [ce, he]
      obtain ⟨b1, b2⟩ := ce_src hce
      rw [S.I.q ok po b1, ok_bind, S.I.qE ok rm po b1, ok_bind]
      have hnt : ¬ Tree net s e := by
        rintro ⟨-, h2, -⟩; rw [b2] at h2; exact h2 hroot
      by_cases hadm : s.flows.get e < net.L e (dd net s e)
      · have hpos : 0 < max 0 (net.L e (dd net s e) - s.flows.get e) := lt_max_of_lt_right (by linarith)
        rw [if_pos hpos, if_pos ((E.pos rm.I0 (S.I.slackI ok rm b1)).2 hpos)]
        obtain ⟨s1, w1, l1, l2, l3, l4, l5, l6, l7, l8, l9, lE⟩ := S.I.link ok rm po hfuel0 hp hroot hce hadm
        rw [l1, ok_bind, lE, ok_bind]
        have S1 : SInv E C net h s1 f w1 τ p := by
          refine ⟨l2, by rw [l6]; exact S.uok, by rw [l6]; exact S.front, by rw [l5]; exact S.pn, ?_, ?_⟩
          · intro v hv hvp h0
            rw [l5] at h0
            rw [l3, Vec.set_get_ne _ _ hvp]; exact S.act v hv hvp h0
          · rw [l5, l6]; exact S.mem
        have sm : Same s s1 := ⟨l4, l7, l8⟩
        obtain ⟨s2, f2, w2, d1, d2, dE⟩ := S1.send ok rm hh hfuel0 hp (sm.po po)
        refine ⟨s2, f2, w2, τ, d1, ⟨d2.S, d2.actp, d2.same.ep.trans l8, .inl ⟨d2.same.sc.trans l4, ?_⟩, ?_⟩, dE⟩
        · refine d2.psi.trans_lt ?_
          have hsub : LS net s1 f ⊆ LS net s f := by
            intro e' he'
            simp only [LS, Finset.mem_filter, Finset.mem_range, sm.dd] at he' ⊢
            refine ⟨he'.1, he'.2.elim .inl ?_⟩
            rintro ⟨t1, t2, t3⟩
            unfold ce at t3
            rw [l7] at t3
            by_cases h1 : net.src e' = p
            · have : e' = e := by
                rw [h1] at t3
                have h3 := hce
                unfold ce at h3
                rw [h3] at t3
                exact (Option.some.inj t3).symm
              rw [this]; exact .inl l9
            · rw [l3, Vec.set_get_ne _ _ h1] at t2
              exact .inr ⟨t1, t2, t3⟩
          have h1 := Finset.card_le_card hsub
          have h2 := rts_link (net := net) l3 hp hroot
          unfold psi
          omega
        · intro v hv hvp
          have := d2.imb v hv hvp
          rwa [l5] at this
      · have hpos : ¬ 0 < max 0 (net.L e (dd net s e) - s.flows.get e) := by
          rw [not_lt]; exact max_le le_rfl (by linarith [not_lt.1 hadm])
        rw [if_neg hpos, if_neg (fun hc => hpos ((E.pos rm.I0 (S.I.slackI ok rm b1)).1 hc))]
        rw [Vec.wr_ok _ (by rw [S.I.st.csz]; omega), ok_bind, ok_bind]
        have hle : net.L e (dd net s e) ≤ f e := by
          by_cases htx : Tree net s (e ^^^ 1)
          · obtain ⟨t1, t2, t3, t4⟩ := S.I.treeE ok htx
            have := not_adm_x (s := s) ok S.I.anti (ok.x_lt e b1) (by rw [t3]; linarith)
            rwa [xor_xor] at this
          · rw [← S.I.non e b1 hnt htx]; exact not_lt.1 hadm
        obtain ⟨I1, hLS⟩ := S.I.advance hroot hce hle
        have S1 : SInv E C net h { s with currentEdge := s.currentEdge.set p (s.currentEdge.get p + 1) } f w τ p :=
          ⟨I1, S.uok, S.front, S.pn, S.act, S.mem⟩
        obtain ⟨s2, f2, w2, τ2, d1, d2, dE⟩ := ih _ S1 ⟨po.1, po.2, po.3⟩ hroot
          (by show _ < fuel + (s.currentEdge.set p _).get p; rw [Vec.set_get_self]; omega) (by omega) hep hov
        refine ⟨s2, f2, w2, τ2, d1, ⟨d2.S, d2.actp, d2.ep, ?_, d2.imb⟩, dE⟩
        have : psi net { s with currentEdge := s.currentEdge.set p (s.currentEdge.get p + 1) } f = psi net s f := by
          unfold psi
          rw [hLS]; rfl
        rw [← this]
        exact d2.prog
    · rw [if_neg hk, if_neg hk]
      obtain ⟨s', τ', d1, d2⟩ := S.updateScaling ok rm hh hfuel0 hp po hroot (by omega) hep hov
      exact ⟨s', f, w, τ', d1, d2⟩

end AHO.Flow
