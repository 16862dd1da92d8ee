import Verif.Proof.FlowInv
import Mathlib.Data.Finset.Card
/-!
# `Flow::send`
-/

namespace AHO.Flow
open AHO Spec LCT
set_option linter.unusedSectionVars false

variable {K : Type} [Field K] [LinearOrder K] [IsStrictOrderedRing K]
variable {R : Type} [Zero R] [One R] [Add R] [Sub R] [Neg R] [Mul R] [Div R] [IntCast R] [BEq R] [LT R] [LE R]
  [DecidableLT R] [DecidableLE R] {E : FEmb K R} {ed : Vec (OmegaLimit R)} {C : K}
variable {net : Net K} {h : Int} {s : Flow K} {f w : Nat → K} {τ : Nat → Nat}

open Classical in
/-- admissible edges, and edges of the forest -/
noncomputable def LS (net : Net K) (s : Flow K) (f : Nat → K) : Finset Nat :=
  (Finset.range net.E).filter (fun e => f e < net.L e (dd net s e) ∨ Tree net s e)

/-- roots of the forest -/
def rts (net : Net K) (s : Flow K) : Finset Nat :=
  (Finset.range (net.n + 1)).filter (fun v => s.fa.get v = none)

theorem rts_le : (rts net s).card ≤ net.n + 1 := by
  have := Finset.card_filter_le (Finset.range (net.n + 1)) (fun v => s.fa.get v = none)
  simpa [rts] using this

/-- decreases with every operation other than a relabelling -/
noncomputable def psi (net : Net K) (s : Flow K) (f : Nat → K) : Nat :=
  2 * (LS net s f).card + (rts net s).card

/-- The situation inside `send(p)`: everything with excess other than `p` is a root and in the queue. -/
structure SInv (E : FEmb K R) (C : K) (net : Net K) (h : Int) (s : Flow K) (f w : Nat → K) (τ : Nat → Nat) (p : Nat) : Prop where
  I : FInv E C net h s f w τ
  uok : UQ.OK s.uq
  front : ∃ xs, s.uq.queue = p :: xs
  pn : 0 ≤ s.imbalances.get p
  act : ∀ v, v ≤ net.n → v ≠ p → 0 < s.imbalances.get v → s.fa.get v = none
  mem : ∀ v, v ≤ net.n → v ≠ p → (v ∈ s.uq.queue ↔ 0 < s.imbalances.get v)

/-- fields which `send` leaves alone -/
structure Same (s s' : Flow K) : Prop where
  sc : s'.scaling = s.scaling
  ce : s'.currentEdge = s.currentEdge
  ep : s'.epsilon = s.epsilon

theorem Same.refl : Same s s := ⟨rfl, rfl, rfl⟩

theorem Same.trans {s s' s'' : Flow K} (a : Same s s') (b : Same s' s'') : Same s s'' :=
  ⟨b.sc.trans a.sc, b.ce.trans a.ce, b.ep.trans a.ep⟩

theorem Same.po {s s' : Flow K} {imax} (a : Same s s') (po : PotOK net imax s) : PotOK net imax s' :=
  ⟨po.1, by rw [a.sc]; exact po.2, by rw [a.sc]; exact po.3⟩

theorem Same.dd {s s' : Flow K} (a : Same s s') (e : Nat) : dd net s' e = dd net s e := by
  unfold Flow.dd; rw [a.sc]

theorem enqueueActive_spec {s : Flow K} {v} (hi : v < s.imbalances.size) (hq : v < s.uq.isIn.size)
    (ho : UQ.OK s.uq) :
    ∃ uq', enqueueActive s v = .ok { s with uq := uq' } ∧ UQ.OK uq' ∧ uq'.isIn.size = s.uq.isIn.size ∧
      uq'.queue = if 0 < s.imbalances.get v ∧ v ∉ s.uq.queue then s.uq.queue ++ [v] else s.uq.queue := by
  unfold enqueueActive
  rw [Vec.rd_ok hi, ok_bind]
  by_cases hb : 0 < s.imbalances.get v
  · rw [if_pos hb]
    obtain ⟨q', q1, q2, q3, q4⟩ := UQ.push_spec ho hq
    rw [q1]
    refine ⟨q', rfl, q2, q3, ?_⟩
    rw [q4]
    by_cases hm : v ∈ s.uq.queue <;> simp [hm, hb]
  · rw [if_neg hb]
    exact ⟨s.uq, rfl, ho, rfl, by simp [hb]⟩

open Classical in
theorem SInv.push (ok : net.OK) (rm : Room E ed net C) {p} (S : SInv E C net h s f w τ p) (hh : 0 ≤ h) {fuel} (hfuel : net.n + 2 ≤ fuel)
    {r} (hp : p ≤ net.n)
    (hpath : OnPath s.fa.get p r) (hr : s.fa.get r = none) (hne : p ≠ r) {x : K} (hx : 0 ≤ x) (hxU : x ∈ E.U)
    (hxp : x ≤ s.imbalances.get p)
    (hmin : ∀ v, OnPath s.fa.get p v → s.fa.get v ≠ none → x ≤ w v) :
    ∃ s' f' w', sendPush fuel s p r x = .ok s' ∧ SInv E C net h s' f' w' τ p ∧ Same s s' ∧
      s'.fa = s.fa ∧ LS net s' f' ⊆ LS net s f ∧
      (∀ v, OnPath s.fa.get p v → w' v = w v - x) ∧
      s'.imbalances.get p = s.imbalances.get p - x ∧
      (∀ v, v ≤ net.n → v ≠ p → s.imbalances.get v ≤ s'.imbalances.get v) ∧
      sendPush fuel (E.F ed s) p r (E.e x) = .ok (E.F ed s') := by
  obtain ⟨h1, a1, a2, a3, aE⟩ := S.I.push ok rm hh hfuel hp hpath hr hne hx hxU hmin
  have hrn := (S.I.onPath ok hp hpath).1
  set im := (s.imbalances.set p (s.imbalances.get p - x)).set r (s.imbalances.get r + x) with him
  set s1 : Flow K := { s with nodes := h1, imbalances := im } with hs1
  have hsz : s1.imbalances.size = net.n + 1 := S.I.st.isz
  have hqz : s1.uq.isIn.size = net.n + 1 := S.I.st.qsz
  obtain ⟨uq', u1, u2, u3, u4⟩ := enqueueActive_spec (s := s1) (v := r) (by omega) (by omega) S.uok
  have g1 : im.get p = s.imbalances.get p - x := by
    rw [him, Vec.set_get, if_neg hne, Vec.set_get_self]
  have g2 : im.get r = s.imbalances.get r + x := by rw [him, Vec.set_get_self]
  have g3 : ∀ v, v ≠ p → v ≠ r → im.get v = s.imbalances.get v := by
    intro v h1 h2; rw [him, Vec.set_get_ne _ _ h2, Vec.set_get_ne _ _ h1]
  refine ⟨{ s1 with uq := uq' }, pushF net s f p x,
    (fun v => if OnPath s.fa.get p v then w v + -x else w v), ?_, ⟨?_, u2, ?_, ?_, ?_, ?_⟩, ⟨rfl, rfl, rfl⟩, rfl, ?_, ?_, g1, ?_, ?_⟩
  · unfold sendPush
    rw [a1, ok_bind]
    dsimp only
    rw [Vec.rd_ok (by rw [S.I.st.isz]; omega), ok_bind, Vec.wr_ok _ (by rw [S.I.st.isz]; omega), ok_bind,
      Vec.rd_ok (by rw [Vec.set_size, S.I.st.isz]; omega), ok_bind,
      Vec.wr_ok _ (by rw [Vec.set_size, S.I.st.isz]; omega), ok_bind,
      Vec.set_get_ne _ _ (Ne.symm hne)]
    exact u1
  · exact { a2 with st := { a2.st with qsz := by show uq'.isIn.size = _; rw [u3]; exact hqz } }
  · obtain ⟨xs, hxs⟩ := S.front
    show ∃ xs, uq'.queue = p :: xs
    rw [u4]
    rw [show s1.uq.queue = p :: xs from hxs]
    split
    · exact ⟨xs ++ [r], by simp⟩
    · exact ⟨xs, rfl⟩
  · show 0 ≤ im.get p
    rw [g1]; linarith
  · intro v hv hvp hv0
    change 0 < im.get v at hv0
    by_cases hvr : v = r
    · rw [hvr]; exact hr
    · rw [g3 v hvp hvr] at hv0; exact S.act v hv hvp hv0
  · intro v hv hvp
    show v ∈ uq'.queue ↔ 0 < im.get v
    rw [u4]
    change v ∈ (if 0 < im.get r ∧ r ∉ s.uq.queue then s.uq.queue ++ [r] else s.uq.queue) ↔ _
    have hm := S.mem v hv hvp
    by_cases hvr : v = r
    · subst hvr
      by_cases h0 : 0 < im.get v
      · by_cases h1 : v ∈ s.uq.queue <;> simp [h0, h1]
      · have : v ∉ s.uq.queue := by
          intro h1; apply h0; rw [g2]; have := hm.1 h1; linarith
        simp [h0, this]
    · rw [g3 v hvp hvr]
      rw [← hm]
      split <;> simp [hvr]
  · intro e he
    simp only [LS, Finset.mem_filter, Finset.mem_range] at he ⊢
    refine ⟨he.1, ?_⟩
    rcases he.2 with h2 | h2
    · exact .inl (a3 e he.1 h2)
    · exact .inr h2
  · intro v hv
    simp only [hv, if_true]; ring
  · intro v hv hvp
    change _ ≤ im.get v
    by_cases hvr : v = r
    · subst hvr; rw [g2]; linarith
    · rw [g3 v hvp hvr]
  · have hqE := sim_map (enqueueActive_simE (E := E) (ed := ed) (s := s1) (i := r) rm.I0 (a2.imbI ok rm hrn)) u1
    have i1 := a2.imbI ok rm hp
    have i2 := a2.imbI ok rm hrn
    change E.I (im.get p) at i1
    change E.I (im.get r) at i2
    rw [g1] at i1
    rw [g2] at i2
    unfold sendPush
    have hxI : E.I x := rm.imb hxU (by
      rw [abs_of_nonneg hx]
      exact hxp.trans ((le_abs_self _).trans (S.I.imb ok rm hp)))
    rw [← E.neg _ hxI]
    dsimp only [FEmb.F] at hqE ⊢
    rw [aE, ok_bind]
    rw [Vec.rd_ok (show p < (s.imbalances.map E.e).size by rw [Vec.map_size, S.I.st.isz]; omega), ok_bind,
      Vec.map_get, ← E.sub _ _ (S.I.imbU hp) i1,
      Vec.wr_ok _ (by rw [Vec.map_size, S.I.st.isz]; omega), ok_bind, Vec.map_set,
      Vec.rd_ok (by rw [Vec.map_size, Vec.set_size, S.I.st.isz]; omega), ok_bind, Vec.map_get,
      Vec.set_get_ne _ _ (Ne.symm hne), ← E.plus _ _ (S.I.imbU hrn) i2,
      Vec.wr_ok _ (by rw [Vec.map_size, Vec.set_size, S.I.st.isz]; omega), ok_bind, Vec.map_set]
    exact hqE

theorem onPath_cut {par : Nat → Option Nat} {a m} (hp : OnPath par a m) :
    OnPath (Function.update par m none) a m := by
  induction hp using Relation.ReflTransGen.head_induction_on with
  | refl => exact .refl
  | @head a c hac _ ih =>
    by_cases ham : a = m
    · subst ham; exact .refl
    · refine .head ?_ ih
      rw [Up, Function.update_of_ne ham]; exact hac

theorem Tree_cut {s s' : Flow K} {v} (hfa : s'.fa = s.fa.set v none) (hce : s'.currentEdge = s.currentEdge)
    (e : Nat) : Tree net s' e ↔ Tree net s e ∧ net.src e ≠ v := by
  unfold Tree ce
  rw [hfa, hce, Vec.set_get]
  by_cases hv : net.src e = v <;> simp [hv]

theorem rts_cut {s s' : Flow K} {v} (hfa : s'.fa = s.fa.set v none) (hv : v ≤ net.n) (h0 : s.fa.get v ≠ none) :
    (rts net s').card = (rts net s).card + 1 := by
  have : rts net s' = insert v (rts net s) := by
    ext u
    simp only [rts, Finset.mem_filter, Finset.mem_range, Finset.mem_insert, hfa, Vec.set_get]
    by_cases hu : u = v
    · simp [hu]; omega
    · simp [hu]
  rw [this, Finset.card_insert_of_notMem]
  simp [rts, h0]

theorem SInv.cutRoot (ok : net.OK) (rm : Room E ed net C) {p} (S : SInv E C net h s f w τ p) {imax fuel} (po : PotOK net imax s)
    (hfuel : net.n + 2 ≤ fuel) {m} (hm : m ≤ net.n) (hfa : s.fa.get m ≠ none) :
    ∃ s', Flow.cut imax fuel s m = .ok s' ∧ SInv E C net h s' f w τ p ∧ Same s s' ∧
      s'.fa = s.fa.set m none ∧ s'.imbalances = s.imbalances ∧
      (rts net s').card = (rts net s).card + 1 ∧ LS net s' f ⊆ LS net s f ∧
      (w m = 0 → psi net s' f < psi net s f) ∧ Flow.cut imax fuel (E.F ed s) m = .ok (E.F ed s') := by
  obtain ⟨j, hj⟩ := Option.ne_none_iff_exists'.1 hfa
  obtain ⟨s', c1, c2, c3, c4, c5, c6, c7, c8, cE⟩ := S.I.cut ok rm po hfuel hm hj
  have hsame : Same s s' := ⟨c4, c7, c8⟩
  have hsub : LS net s' f ⊆ LS net s f := by
    intro e he
    simp only [LS, Finset.mem_filter, Finset.mem_range, Tree_cut c3 c7, hsame.dd] at he ⊢
    exact ⟨he.1, he.2.imp id And.left⟩
  have hrts := rts_cut (net := net) c3 hm hfa
  refine ⟨s', c1, ⟨c2, by rw [c6]; exact S.uok, by rw [c6]; exact S.front, by rw [c5]; exact S.pn, ?_, ?_⟩,
    hsame, c3, c5, hrts, hsub, ?_, cE⟩
  · intro v hv hvp h0
    rw [c5] at h0
    rw [c3, Vec.set_get]
    split
    · rfl
    · exact S.act v hv hvp h0
  · rw [c5, c6]; exact S.mem
  · intro hw
    obtain ⟨e, et, esrc, edst, ece⟩ := S.I.tree_mk hm hj
    obtain ⟨t1, t2, t3, t4⟩ := S.I.treeE ok et
    have hlt : (LS net s' f).card < (LS net s f).card := by
      apply Finset.card_lt_card
      refine ⟨hsub, fun hc => ?_⟩
      have h1 : e ∈ LS net s f := by
        simp only [LS, Finset.mem_filter, Finset.mem_range]; exact ⟨et.1, .inr et⟩
      have h2 := hc h1
      simp only [LS, Finset.mem_filter, Finset.mem_range, Tree_cut c3 c7, hsame.dd] at h2
      rcases h2.2 with h2 | h2
      · rw [t3, esrc, hw, sub_zero] at h2; exact lt_irrefl _ h2
      · exact h2.2 esrc
    unfold psi
    rw [hrts]
    omega

/-- what `send` achieves -/
structure Sent (E : FEmb K R) (C : K) (net : Net K) (h : Int) (s0 s : Flow K) (f0 f w : Nat → K) (τ : Nat → Nat) (p : Nat) : Prop where
  S : SInv E C net h s f w τ p
  actp : 0 < s.imbalances.get p → s.fa.get p = none
  same : Same s0 s
  psi : psi net s f ≤ psi net s0 f0
  imb : ∀ v, v ≤ net.n → v ≠ p → s0.imbalances.get v ≤ s.imbalances.get v

theorem SInv.sendLoop (ok : net.OK) (rm : Room E ed net C) (hh : 0 ≤ h) {p imax fuel0} (hfuel : net.n + 2 ≤ fuel0) (hp : p ≤ net.n) :
    ∀ (fuel : Nat) (s : Flow K) (f w : Nat → K) (r : Nat), SInv E C net h s f w τ p → PotOK net imax s →
      OnPath s.fa.get p r → s.fa.get r = none → net.n + 1 < fuel + (rts net s).card →
      ∃ s' f' w', sendLoop imax fuel0 p fuel s r = .ok s' ∧ Sent E C net h s s' f f' w' τ p ∧
        Flow.sendLoop imax fuel0 p fuel (E.F ed s) r = .ok (E.F ed s') := by
  intro fuel
  induction fuel with
  | zero => intro s f w r _ _ _ _ hf; have := rts_le (net := net) (s := s); omega
  | succ fuel ih =>
    intro s f w r S po hpath hr hf
    unfold Flow.sendLoop
    by_cases hpr : p = r
    · subst hpr
      simp only [ne_eq, not_true_eq_false, if_false]
      exact ⟨s, f, w, rfl, ⟨S, fun _ => hr, .refl, le_rfl, fun _ _ _ => le_rfl⟩, rfl⟩
    · rw [if_pos hpr, if_pos hpr]
      have hpn : s.fa.get p ≠ none := by
        intro h0
        rcases hpath.cases_head with h | ⟨c, hc, -⟩
        · exact hpr h
        · rw [Up, h0] at hc; simp at hc
      obtain ⟨h1, m, m1, m2, m3, m4, m5, m6, m7, m8, mE⟩ := S.I.rep.getMin (x := p) (fuel := fuel0)
        (by rw [S.I.st.nsz]; omega) hpn (by rw [S.I.st.nsz]; omega)
      have mE' : getMin fuel0 (E.F ed s).nodes p = .ok ((E.e (w m), some m), E.h h1) := mE
      rw [m1, ok_bind, mE', ok_bind]
      dsimp only
      have S1 : SInv E C net h { s with nodes := h1 } f w τ p :=
        ⟨{ S.I with st := { S.I.st with nsz := by show h1.size = _; rw [m2, S.I.st.nsz] }, rep := m3 },
          S.uok, S.front, S.pn, S.act, S.mem⟩
      have sm1 : Same s { s with nodes := h1 } := ⟨rfl, rfl, rfl⟩
      have hmn := (S.I.onPath ok hp m5).1
      have hwm : 0 ≤ w m := by
        obtain ⟨j, hj⟩ := Option.ne_none_iff_exists'.1 m6
        obtain ⟨e, -, -, -, -, h5⟩ := S.I.tree m hmn j hj
        exact h5
      have rdE : (E.F ed s).imbalances.rd p = .ok (E.e (s.imbalances.get p)) := by
        rw [show (E.F ed s).imbalances = s.imbalances.map E.e from rfl,
          Vec.rd_ok (by rw [Vec.map_size, S.I.st.isz]; omega), Vec.map_get]
      rw [Vec.rd_ok (by rw [S.I.st.isz]; omega), ok_bind, rdE, ok_bind]
      have hlt := E.lt _ _ (S.I.imbI ok rm hp) (S.I.wI ok rm hmn)
      by_cases hb : s.imbalances.get p < w m
      · rw [if_pos hb, if_pos (hlt.2 hb)]
        obtain ⟨s', f', w', p1, p2, p3, p4, p5, p6, p7, p8, pE⟩ := S1.push ok rm hh hfuel hp hpath hr hpr S.pn
          (S.I.imbU hp) le_rfl (fun v h1 h2 => hb.le.trans (m7 v h1 h2))
        refine ⟨s', f', w', p1, ⟨p2, ?_, sm1.trans p3, ?_, p8⟩, pE⟩
        · intro h0
          rw [p7] at h0
          exact absurd h0 (by simp)
        · unfold psi
          have e1 : rts net s' = rts net s := by unfold rts; rw [p4]
          rw [e1]
          have : LS net s' f' ⊆ LS net s f := p5
          have := Finset.card_le_card this
          omega
      · rw [if_neg hb, if_neg (fun hc => hb (hlt.1 hc))]
        obtain ⟨s2, f', w', p1, p2, p3, p4, p5, p6, p7, p8, pE⟩ := S1.push ok rm hh hfuel hp hpath hr hpr hwm
          (S.I.ext.wU m hmn) (not_lt.1 hb) m7
        have pE' : sendPush fuel0 { E.F ed s with nodes := E.h h1 } p r (E.e (w m)) = .ok (E.F ed s2) := pE
        rw [p1, ok_bind, pE', ok_bind]
        have hd : LCT.deref (some m) = .ok m := rfl
        rw [hd, ok_bind, ok_bind]
        have po2 := p3.po (sm1.po po)
        obtain ⟨s3, c1, c2, c3, c4, c5, c6, c7, c8, cE⟩ := p2.cutRoot ok rm po2 hfuel hmn (by rw [p4]; exact m6)
        rw [c1, ok_bind, cE, ok_bind]
        have hfu : s3.fa.get = Function.update s.fa.get m none := by
          rw [c4, p4]; funext k; simp [Vec.set_get, Function.update_apply]
        have e1 : rts net s2 = rts net s := by unfold rts; rw [p4]
        obtain ⟨s4, f4, w4, d1, d2, dE⟩ := ih s3 f' w' m c2 (c3.po po2) (by rw [hfu]; exact onPath_cut m5)
          (by rw [hfu]; simp) (by rw [c6, e1]; omega)
        refine ⟨s4, f4, w4, d1, ⟨d2.S, d2.actp, (sm1.trans (p3.trans c3)).trans d2.same, ?_, ?_⟩, dE⟩
        · refine d2.psi.trans ((c8 (by rw [p6 m m5, sub_self])).le.trans ?_)
          unfold psi
          rw [e1]
          have : LS net s2 f' ⊆ LS net s f := p5
          have := Finset.card_le_card this
          omega
        · intro v hv hvp
          have := d2.imb v hv hvp
          rw [c5] at this
          exact (p8 v hv hvp).trans this

theorem SInv.send (ok : net.OK) (rm : Room E ed net C) (hh : 0 ≤ h) {p imax fuel} (hfuel : net.n + 2 ≤ fuel) (hp : p ≤ net.n)
    (S : SInv E C net h s f w τ p) (po : PotOK net imax s) :
    ∃ s' f' w', send imax fuel s p = .ok s' ∧ Sent E C net h s s' f f' w' τ p ∧
      Flow.send imax fuel (E.F ed s) p = .ok (E.F ed s') := by
  obtain ⟨r, h1, r1, r2, r3, r4, r5, r6, rE⟩ := S.I.rep.findRoot (x := p) (fuel := fuel)
    (by rw [S.I.st.nsz]; omega) (by rw [S.I.st.nsz]; omega)
  unfold Flow.send
  have rE' : findRoot fuel (E.F ed s).nodes p = .ok (r, E.h h1) := rE
  rw [r1, ok_bind, rE', ok_bind]
  have S1 : SInv E C net h { s with nodes := h1 } f w τ p :=
    ⟨{ S.I with st := { S.I.st with nsz := by show h1.size = _; rw [r2, S.I.st.nsz] }, rep := r3 },
      S.uok, S.front, S.pn, S.act, S.mem⟩
  obtain ⟨s', f', w', d1, d2, dE⟩ := SInv.sendLoop ok rm hh hfuel hp fuel _ f w r S1 ⟨po.1, po.2, po.3⟩ r5 r6
    (by
      have : 0 < (rts net { s with nodes := h1 }).card := by
        apply Finset.card_pos.2
        refine ⟨r, ?_⟩
        have := (S.I.onPath ok hp r5).1
        simp only [rts, Finset.mem_filter, Finset.mem_range]
        exact ⟨by omega, r6⟩
      omega)
  exact ⟨s', f', w', d1, ⟨d2.S, d2.actp, ⟨d2.same.1, d2.same.2, d2.same.3⟩, d2.psi, d2.imb⟩, dE⟩

end AHO.Flow
