import Verif.Proof.LCTForest
/-!
# Amortised number of steps of `access`
-/

namespace AHO.LCT
open AHO T
set_option linter.unusedSectionVars false

variable {D : Type} [Add D] [Zero D] [BEq D] [LT D] [LE D] [DecidableLT D] [DecidableLE D]

/-- What is used of the sizes `R` of the subtrees of the forest, and of the sizes `R1` by which the path that is being
accessed is measured. -/
structure Wts (N : Nat) (par : Nat → Option Nat) (R R1 : Nat → Nat) (v : Nat) : Prop where
  pos : ∀ k, k < N → 1 ≤ R k
  pos1 : ∀ k, k < N → 1 ≤ R1 k ∧ R1 k ≤ N + 1
  shift : ∃ δ, ∀ k, k ≠ v → R1 k = R k + δ
  edge : ∀ z p, par z = some p → z < N → z ≠ v → R z + 1 ≤ R p
  edge1 : ∀ z p, par z = some p → z < N → p ≠ v → R1 z + 1 ≤ R1 p
  cross1 : ∀ z p, par z = some p → z < N → R1 z ≤ R p
  cross2 : ∀ z y p, par z = some p → par y = some p → z < N → y < N → z ≠ y → y ≠ v → R1 z + R y ≤ R p

theorem dec_of_chain {par : Nat → Option Nat} {R : Nat → Nat} {l : List Nat} (h : l.IsChain fun a b => par b = some a)
    (hR : ∀ z ∈ l, ∀ p, par z = some p → R z + 1 ≤ R p) : Dec R l := by
  unfold Dec
  rw [List.isChain_iff_getElem] at h ⊢
  intro i hi
  exact hR _ (List.getElem_mem _) _ (h i hi)

theorem dec_of_chain_last {par : Nat → Option Nat} {R : Nat → Nat} {l : List Nat} {v : Nat}
    (h : l.IsChain fun a b => par b = some a) (hn : l.Nodup) (hl : l.getLast? = some v)
    (hR : ∀ z ∈ l, ∀ p, par z = some p → p ≠ v → R z + 1 ≤ R p) : Dec R l := by
  unfold Dec
  rw [List.isChain_iff_getElem] at h ⊢
  intro i hi
  refine hR _ (List.getElem_mem _) _ (h i hi) fun e => ?_
  rw [List.getLast?_eq_getElem?] at hl
  have h1 : l[i]? = some v := by rw [List.getElem?_eq_getElem (by omega), e]
  have := (List.getElem?_inj (by omega) hn).1 (h1.trans hl.symm)
  omega

theorem nxR_cases {par : Nat → Option Nat} {R : Nat → Nat} {l : List Nat} (h : l.IsChain fun a b => par b = some a) (k : Nat) :
    nxR R l k = 0 ∨ ∃ y ∈ l, par y = some k ∧ nxR R l k = R y := by
  induction l with
  | nil => exact .inl rfl
  | cons x l ih =>
    simp only [nxR]
    split
    · next e =>
      subst e
      cases l with
      | nil => exact .inl rfl
      | cons y l => exact .inr ⟨y, by simp, (List.isChain_cons_cons.1 h).1, rfl⟩
    · rcases ih h.tail with h1 | ⟨y, h1, h2, h3⟩
      · exact .inl h1
      · exact .inr ⟨y, by simp [h1], h2, h3⟩

theorem sz_pos_node {W : Nat → Nat} {a x b} (h : 1 ≤ W x) : 1 ≤ sz W (node a x b) := by simp only [sz]; omega

theorem hdR_append {R : Nat → Nat} (a : List Nat) (p : Nat) (b b' : List Nat) : hdR R (a ++ p :: b) = hdR R (a ++ p :: b') := by
  cases a <;> rfl

/-- The potential of a path which is continued upwards: the part above keeps its weights. -/
theorem phiR_graft {R R1 : Nat → Nat} {δ v : Nat} {a b Q : T} {p : Nat} (hsh : ∀ k, k ≠ v → R1 k = R k + δ)
    (hv : v ∉ a.io ∧ v ≠ p) (hn : (node a p b).io.Nodup) (hnQ : (node a p Q).io.Nodup) (hd : Dec R (node a p b).io)
    (hd1 : Dec R1 (node a p Q).io) :
    phiR R1 (node a p Q) - phiR R1 Q = lg (hdR R1 (node a p Q).io) - lg (hdR R (node a p b).io) + phiR R (node a p b) - phiR R b := by
  have h1 := sz_wt hn hd
  have h2 := sz_wt hnQ hd1
  simp only [sz] at h1 h2
  have hna : a.io.Nodup := (List.nodup_append.1 hn).1
  have hpa : p ∉ a.io := fun hk => (List.nodup_append.1 hn).2.2 p hk p (by simp) rfl
  have hpb : p ∉ b.io := by
    have := (List.nodup_append.1 hn).2.1
    exact (List.nodup_cons.1 this).1
  have hpQ : p ∉ Q.io := by
    have := (List.nodup_append.1 hnQ).2.1
    exact (List.nodup_cons.1 this).1
  have eb : phi (wt R (node a p b).io) b = phiR R b := by
    refine phi_congr fun k hk => ?_
    unfold wt
    rw [io_node, nxR_append_right, nxR, if_neg (by rintro rfl; exact hpb hk)]
    exact fun hka => (List.nodup_append.1 hn).2.2 k hka k (by simp [hk]) rfl
  have eQ : phi (wt R1 (node a p Q).io) Q = phiR R1 Q := by
    refine phi_congr fun k hk => ?_
    unfold wt
    rw [io_node, nxR_append_right, nxR, if_neg (by rintro rfl; exact hpQ hk)]
    exact fun hka => (List.nodup_append.1 hnQ).2.2 k hka k (by simp [hk]) rfl
  have ea : phi (wt R1 (node a p Q).io) a = phi (wt R (node a p b).io) a := by
    refine phi_congr fun k hk => ?_
    unfold wt
    rw [io_node, io_node, nxR_append_left (l' := Q.io) hk, nxR_append_left (l' := b.io) hk, hsh k (by rintro rfl; exact hv.1 hk)]
    have : nxR R1 (a.io ++ [p]) k = nxR R (a.io ++ [p]) k + δ := by
      clear h1 h2 eb eQ hn hnQ hd hd1 hna hpa
      obtain ⟨hva, hvp⟩ := hv
      generalize a.io = l at hk hva ⊢
      induction l with
      | nil => cases hk
      | cons y l ih =>
        simp only [List.cons_append, nxR]
        split
        · cases l with
          | nil => exact hsh p (Ne.symm hvp)
          | cons z l => exact hsh z (by rintro rfl; exact hva (by simp))
        · next hne =>
          exact ih ((List.mem_cons.1 hk).resolve_left fun e => hne e.symm) fun h => hva (by simp [h])
    rw [this, Nat.add_sub_add_right]
  have e1 : phiR R1 (node a p Q) = lg (hdR R1 (node a p Q).io) + phi (wt R1 (node a p Q).io) a + phi (wt R1 (node a p Q).io) Q := by
    unfold phiR
    rw [phi, h2]
  have e2 : phiR R (node a p b) = lg (hdR R (node a p b).io) + phi (wt R (node a p b).io) a + phi (wt R (node a p b).io) b := by
    unfold phiR
    rw [phi, h1]
  rw [e1, e2, ea, eb, eQ]
  ring

/-- potential with the path `Q` measured by `R1` -/
noncomputable def Psi (N : Nat) (R R1 : Nat → Nat) (tr : Nat → T) (Q : T) : ℝ := pot N R tr - phiR R Q + phiR R1 Q

/-- one iteration of the loop of `access` -/
theorem SInv.accessStep {h h' h1 h2 : Heap D} {par tr} (I : SInv h par tr) {R R1 v} (X : Wts h.size par R R1 v) {p z Q fuel k}
    (hlQ : Q.io.getLast? = some v) (hQ : ∀ u ∈ Q.io, u < h.size ∧ tr u = Q) (hz : Q.io.head? = some z) (hzp : par z = some p)
    (e1 : splayC fuel h p = .ok (k, h1)) (e2 : setc h1 p Q.rt true = .ok h2) (e3 : pushUp h2 p = .ok h') :
    ∃ tr' a, h'.size = h.size ∧ p < h.size ∧ SInv h' par tr' ∧ (∀ u ∈ (node a p Q).io, u < h.size ∧ tr' u = node a p Q) ∧
      (h'.get p).fa = (node a p Q).io.head?.bind par ∧
      lg (hdR R1 Q.io) ≤ lg (hdR R1 (node a p Q).io) ∧
      (k : ℝ) + 1 + 2 * (Psi h.size R R1 tr' (node a p Q) - Psi h.size R R1 tr Q) ≤
        8 * (lg (hdR R1 (node a p Q).io) - lg (hdR R1 Q.io)) + 4 ∧
      Psi h.size R R1 tr' (node a p Q) - Psi h.size R R1 tr Q ≤ 4 * (lg (hdR R1 (node a p Q).io) - lg (hdR R1 Q.io)) := by
  have hvQ : v ∈ Q.io := List.mem_of_getLast? hlQ
  have hzQ : z ∈ Q.io := List.mem_of_mem_head? (by rw [hz]; rfl)
  have hzs := (hQ z hzQ).1
  have hps := I.range z p hzp hzs
  have hSQ : SQ h par tr p Q := ⟨hQ, fun z' hz' => by rw [hz] at hz'; cases hz'; exact hzp⟩
  have hnm := I.not_mem hps hSQ
  have Lp := I.loc p hps
  obtain ⟨a0, b0, c, hfoc⟩ := exists_focus (tr p) p Lp.mem
  obtain ⟨tr1, a, b, f1, f2, I1, f3, f4, f5, f6, f7, f8⟩ := I.splay hps hfoc e1
  have hvp : v ∉ (tr p).io := hnm v hvQ
  -- `Q` after the splay
  have hQ1 : ∀ u ∈ Q.io, u < h1.size ∧ tr1 u = Q := fun u hu => ⟨by have := (hQ u hu).1; omega, by rw [f5 u (hnm u hu), (hQ u hu).2]⟩
  obtain ⟨tr2, g1, I2, g2, g3, g4, g5⟩ := I1.splice (p := p) (a := a) (b := b) (Q := Q) (by omega) ⟨hQ1, hSQ.2⟩ f3 e2
  have pp := pushUp_ptrs e3
  have hszp : h'.size = h.size := by rw [pp.1, g1, f2]
  have dR : Dec R (tr p).io := dec_of_chain Lp.chain fun z' hz' p' hp' =>
    X.edge z' p' hp' (Lp.shape.lt hz') (by rintro rfl; exact hvp hz')
  have L2 := I2.loc p (by omega)
  have hn2 := L2.nodup
  have hc2 := L2.chain
  rw [g2] at hn2 hc2
  have d1 : Dec R1 (node a p Q).io := dec_of_chain_last hc2 hn2
    (by rw [io_node, List.getLast?_append, List.getLast?_cons, hlQ]; rfl) fun z' hz' p' hp' hpv =>
    X.edge1 z' p' hp' (by have := (g4 z' hz').1; omega) hpv
  have hn1 : (node a p b).io.Nodup := by rw [f4]; exact Lp.nodup
  have hvn : v ∉ (node a p b).io := by rw [f4]; exact hvp
  obtain ⟨δ, hδ⟩ := X.shift
  have key := phiR_graft (a := a) (b := b) (Q := Q) (p := p) hδ ⟨fun hk => hvn (by simp [hk]), fun e => hvn (by simp [e])⟩ hn1 hn2
    (by rw [f4]; exact dR) d1
  -- the weight of `p`
  have hWpos : ∀ k ∈ (tr p).io, 1 ≤ wt R (tr p).io k := fun k hk => wt_pos dR hk (X.pos k (Lp.shape.lt hk))
  have hWp : hdR R1 Q.io ≤ wt R (tr p).io p := by
    have : hdR R1 Q.io = R1 z := by
      cases hl : Q.io with
      | nil => rw [hl] at hz; cases hz
      | cons z' l => rw [hl] at hz; cases hz; rfl
    rw [this]
    unfold wt
    rcases nxR_cases (R := R) Lp.chain p with h0 | ⟨y, h1, h2, h3⟩
    · rw [h0]; exact X.cross1 z p hzp hzs
    · rw [h3]
      have := X.cross2 z y p hzp h2 hzs (Lp.shape.lt h1) (by rintro rfl; exact hnm z hzQ h1) (by rintro rfl; exact hvp h1)
      omega
  have hz1 : 1 ≤ hdR R1 Q.io := by
    cases hl : Q.io with
    | nil => rw [hl] at hz; cases hz
    | cons z' l => exact (X.pos1 z' (hQ z' (by simp [hl])).1).1
  have hs0 : hdR R1 Q.io ≤ sz (wt R (tr p).io) (node a0 p b0) := by
    refine hWp.trans ?_
    simp only [sz]; omega
  have hs1 : sz (wt R (tr p).io) (node a0 p b0) ≤ hdR R (tr p).io := by
    rw [← sz_wt Lp.nodup dR]
    conv_rhs => arg 2; rw [← hfoc]
    exact sz_le_plug _ _ _
  have hhd : hdR R (tr p).io ≤ hdR R1 (node a p Q).io := by
    rw [← f4, io_node, io_node, hdR_append (R := R1) a.io p Q.io b.io]
    rw [← f4] at hvp
    simp only [io_node, List.mem_append, List.mem_cons, not_or] at hvp
    cases hl : a.io with
    | nil => simp only [List.nil_append, hdR]; rw [hδ p (Ne.symm hvp.2.1)]; omega
    | cons g l =>
      simp only [List.cons_append, hdR]
      rw [hδ g (by rintro rfl; exact hvp.1 (by simp [hl]))]; omega
  have l1 : lg (hdR R1 Q.io) ≤ lg (sz (wt R (tr p).io) (node a0 p b0)) := lg_mono hz1 hs0
  have l2 : lg (sz (wt R (tr p).io) (node a0 p b0)) ≤ lg (hdR R (tr p).io) := lg_mono (hz1.trans hs0) hs1
  have l3 : lg (hdR R (tr p).io) ≤ lg (hdR R1 (node a p Q).io) := lg_mono ((hz1.trans hs0).trans hs1) hhd
  obtain ⟨w1, w2⟩ := f8 (wt R (tr p).io) hWpos
  rw [sz_wt Lp.nodup dR] at w1 w2
  have e4 : phi (wt R (tr p).io) (node a p b) = phiR R (node a p b) := by unfold phiR; rw [f4]
  have e5 : phi (wt R (tr p).io) (tr p) = phiR R (tr p) := rfl
  rw [e4, e5] at w1 w2
  have p1 := f7 R
  have p2 := g5 R
  rw [f2] at p2
  rw [f4] at key
  have dP : Psi h.size R R1 tr2 (node a p Q) - Psi h.size R R1 tr Q =
      lg (hdR R1 (node a p Q).io) - lg (hdR R (tr p).io) + phiR R (node a p b) - phiR R (tr p) := by
    unfold Psi
    linarith
  have hk : (k : ℝ) = 2 * c.length + 1 := by exact_mod_cast f1
  refine ⟨tr2, a, hszp, hps, I2.ptrs pp, fun u hu => ⟨by have := (g4 u hu).1; omega, (g4 u hu).2⟩, ?_, by linarith, ?_, ?_⟩
  · rw [(pp.2 p).1, g3]
  · rw [dP, hk]; linarith
  · rw [dP]; linarith

/-- the loop of `access` -/
theorem SInv.accessLoop {N : Nat} {par : Nat → Option Nat} {R R1 : Nat → Nat} {v fuel0 : Nat} (X : Wts N par R R1 v) {a0 : T} :
    ∀ (fuel : Nat) (h : Heap D) (tr : Nat → T) (c : List (Bool × Nat × T)) (k : Nat) (h' : Heap D), h.size = N → SInv h par tr →
    (plug (node a0 v nil) c).io.getLast? = some v →
    (∀ u ∈ (plug (node a0 v nil) c).io, u < N ∧ tr u = plug (node a0 v nil) c) →
    accessLoopC fuel0 fuel h ((plug (node a0 v nil) c).io.head?.bind par) (plug (node a0 v nil) c).rt = .ok (k, h') →
    ∃ tr' c' J, h'.size = N ∧ SInv h' par tr' ∧ c'.length = c.length + J ∧ (plug (node a0 v nil) c').io.getLast? = some v ∧
      (∀ u ∈ (plug (node a0 v nil) c').io, u < N ∧ tr' u = plug (node a0 v nil) c') ∧
      (plug (node a0 v nil) c').io.head?.bind par = none ∧
      lg (hdR R1 (plug (node a0 v nil) c).io) ≤ lg (hdR R1 (plug (node a0 v nil) c').io) ∧
      (k : ℝ) + 2 * (Psi N R R1 tr' (plug (node a0 v nil) c') - Psi N R R1 tr (plug (node a0 v nil) c)) ≤
        8 * (lg (hdR R1 (plug (node a0 v nil) c').io) - lg (hdR R1 (plug (node a0 v nil) c).io)) + 4 * J ∧
      Psi N R R1 tr' (plug (node a0 v nil) c') - Psi N R R1 tr (plug (node a0 v nil) c) ≤
        4 * (lg (hdR R1 (plug (node a0 v nil) c').io) - lg (hdR R1 (plug (node a0 v nil) c).io)) := by
  intro fuel
  induction fuel with
  | zero => intro h tr c k h' _ _ _ _ e; cases e
  | succ fuel ih =>
    intro h tr c k h' hN I hl hQ e
    cases hp : (plug (node a0 v nil) c).io.head?.bind par with
    | none =>
      rw [hp] at e
      cases e
      exact ⟨tr, c, 0, hN, I, rfl, hl, hQ, hp, le_rfl, by simp, by simp⟩
    | some p =>
      rw [hp, accessLoopC] at e
      simp only [] at e
      obtain ⟨⟨k1, h1⟩, e1, e⟩ := bind_ok e
      obtain ⟨h2, e2, e⟩ := bind_ok e
      obtain ⟨h3, e3, e⟩ := bind_ok e
      obtain ⟨n, e4, e⟩ := bind_ok e
      obtain ⟨⟨m, h4⟩, e5, e⟩ := bind_ok e
      cases e
      obtain ⟨-, rfl⟩ := rd_inv e4
      obtain ⟨z, hz, hzp⟩ : ∃ z, (plug (node a0 v nil) c).io.head? = some z ∧ par z = some p := by
        simpa [Option.bind_eq_some_iff] using hp
      subst hN
      obtain ⟨tr2, a, g1, g2, I2, g3, g4, g5, g6, g7⟩ := I.accessStep X hl hQ hz hzp e1 e2 e3
      obtain ⟨cc, hcc, hccl⟩ : ∃ cc, plug (node a0 v nil) cc = node a p (plug (node a0 v nil) c) ∧ cc.length = c.length + 1 := by
        refine ⟨c ++ [(true, p, a)], ?_, by simp⟩
        have : ∀ (c : List (Bool × Nat × T)) (t : T) c', plug t (c ++ c') = plug (plug t c) c' := by
          intro c
          induction c with
          | nil => intro t c'; rfl
          | cons fr c ih => intro t c'; obtain ⟨d, y, s⟩ := fr; exact ih _ _
        rw [this]
        rfl
      rw [← hcc] at g3 g4 g5 g6 g7
      rw [g4] at e5
      obtain ⟨tr3, c3, J, k1', k2, k3, k4, k5, k6, k7, k8, k9⟩ := ih h3 tr2 cc m h4 g1 I2 (by
        rw [hcc, io_node, List.getLast?_append, List.getLast?_cons, hl]; rfl) g3 (by rw [hcc] at e5 ⊢; exact e5)
      refine ⟨tr3, c3, J + 1, k1', k2, by omega, k4, k5, k6, g5.trans k7, ?_, by linarith⟩
      push_cast
      linarith

/-- the loop of `access` from the second iteration on, and the last `splay` -/
theorem SInv.accessTail {N : Nat} {par : Nat → Option Nat} {R R1 : Nat → Nat} {v fuel0 fuel : Nat} (X : Wts N par R R1 v) {a0 : T}
    {h h2 h3 : Heap D} {tr : Nat → T} {k m : Nat} (hN : h.size = N) (I : SInv h par tr)
    (hQ : ∀ u ∈ (node a0 v nil).io, u < N ∧ tr u = node a0 v nil)
    (e1 : accessLoopC fuel0 fuel h ((node a0 v nil).io.head?.bind par) (some v) = .ok (k, h2))
    (e2 : splayC fuel0 h2 v = .ok (m, h3)) :
    ∃ tr' A, h3.size = N ∧ SInv h3 par tr' ∧ tr' v = node A v nil ∧ (node A v nil).io.head?.bind par = none ∧
      (k : ℝ) + m + 6 * (Psi N R R1 tr' (node A v nil) - Psi N R R1 tr (node a0 v nil)) ≤
        24 * (lg (N + 1) - lg (hdR R1 (node a0 v nil).io)) + 18 * lg (N + 1) + 7 := by
  obtain ⟨tr2, c, J, f1, I2, f2, f3, f4, f5, f6, f7, f8⟩ := SInv.accessLoop X fuel h tr [] k h2 hN I (by simp) hQ e1
  simp only [plug_nil, List.length_nil, Nat.zero_add] at f2 f6 f7 f8
  have hv : v ∈ (plug (node a0 v nil) c).io := by rw [mem_plug]; simp
  have hvN := (f4 v hv).1
  have htr := (f4 v hv).2
  have L := I2.loc v (by omega)
  obtain ⟨tr3, a, b, g1, g2, I3, g3, g4, g5, g6, g7, g8⟩ := I2.splay (by omega) htr.symm e2
  rw [htr] at g4 g5 g7 g8
  have hn := L.nodup
  have hc := L.chain
  rw [htr] at hn hc
  have hb : b = nil := by
    rw [← io_eq_nil]
    by_contra hb
    have hn' := hn
    rw [← g4] at f3 hn'
    rw [io_node, List.getLast?_append, List.getLast?_cons] at f3
    have hx1 : v ∈ b.io := by
      cases hbl : b.io.getLast? with
      | none => rw [List.getLast?_eq_none_iff] at hbl; exact absurd hbl hb
      | some z => rw [hbl] at f3; simp at f3; subst f3; exact List.mem_of_getLast? hbl
    simp only [io_node, List.nodup_append, List.nodup_cons] at hn'
    exact hn'.2.1.1 hx1
  subst hb
  have d1 : Dec R1 (plug (node a0 v nil) c).io := dec_of_chain_last hc hn f3 fun z' hz' p' hp' hpv =>
    X.edge1 z' p' hp' (f4 z' hz').1 hpv
  obtain ⟨w1, -⟩ := g8 (wt R1 (plug (node a0 v nil) c).io) fun k hk => wt_pos d1 hk (X.pos1 k (f4 k hk).1).1
  rw [sz_wt hn d1] at w1
  have e4 : phi (wt R1 (plug (node a0 v nil) c).io) (node a v nil) = phiR R1 (node a v nil) := by unfold phiR; rw [g4]
  have e5 : phi (wt R1 (plug (node a0 v nil) c).io) (plug (node a0 v nil) c) = phiR R1 (plug (node a0 v nil) c) := rfl
  rw [e4, e5] at w1
  have hW := wt_pos d1 hv (X.pos1 v hvN).1
  have l1 : 0 ≤ lg (sz (wt R1 (plug (node a0 v nil) c).io) (node a0 v nil)) := lg_nonneg (sz_pos_node hW)
  have l2 : lg (hdR R1 (plug (node a0 v nil) c).io) ≤ lg (N + 1) := by
    cases hl : (plug (node a0 v nil) c).io with
    | nil => rw [hl] at hv; cases hv
    | cons z l =>
      have := X.pos1 z (f4 z (by simp [hl])).1
      exact lg_mono this.1 this.2
  have p1 := g7 R
  rw [f1] at p1
  have dP : Psi N R R1 tr3 (node a v nil) - Psi N R R1 tr2 (plug (node a0 v nil) c) =
      phiR R1 (node a v nil) - phiR R1 (plug (node a0 v nil) c) := by
    unfold Psi
    linarith
  have hm : (m : ℝ) = 2 * J + 1 := by
    rw [← f2]; exact_mod_cast g1
  have hJ : ((c.length : ℕ) : ℝ) = J := by rw [f2]
  rw [hJ] at w1
  refine ⟨tr3, a, by omega, I3, g3, by rw [g4]; exact f5, ?_⟩
  rw [hm]
  linarith

end AHO.LCT
