import Verif.Proof.FlowRefine
/-!
# `Flow::push_all_admissible_edge`, one phase, and all phases
-/

namespace AHO.Flow
open AHO Spec LCT
set_option linter.unusedSectionVars false

variable {K : Type} [Field K] [LinearOrder K] [IsStrictOrderedRing K]
variable {R : Type} [Zero R] [One R] [Add R] [Sub R] [Neg R] [Mul R] [Div R] [IntCast R] [BEq R] [LT R] [LE R]
  [DecidableLT R] [DecidableLE R] {E : FEmb K R} {ed : Vec (OmegaLimit R)} {C : K}
variable {net : Net K} {h : Int} {s : Flow K}

theorem excess_add (ok : net.OK) {f g : Nat → K} {e x} (he : e < net.E)
    (hg : ∀ k, k < net.E → g k = f k + (if k = e then x else 0) - (if k = e ^^^ 1 then x else 0)) (v : Nat) :
    excess net g v = excess net f v + (if v = net.src e then x else 0) - (if v = net.dst e then x else 0) := by
  have hs1 : ∑ k ∈ (Finset.range net.E).filter (fun e => net.src e = v), (if k = e then x else 0) =
      if v = net.src e then x else 0 := by
    rw [Finset.sum_ite_eq']
    simp only [Finset.mem_filter, Finset.mem_range, he, true_and]
    simp only [eq_comm]
  have hs2 : ∑ k ∈ (Finset.range net.E).filter (fun e => net.src e = v), (if k = e ^^^ 1 then x else 0) =
      if v = net.dst e then x else 0 := by
    rw [Finset.sum_ite_eq']
    simp only [Finset.mem_filter, Finset.mem_range, ok.x_lt e he, ok.src_x e he, true_and]
    simp only [eq_comm]
  unfold excess
  rw [← hs1, ← hs2, ← Finset.sum_add_distrib, ← Finset.sum_sub_distrib]
  exact Finset.sum_congr rfl fun k hk => hg k (by simpa using (Finset.mem_filter.1 hk).1)

/-- invariant of the first loop of `push_all_admissible_edge` -/
structure PushInv (E : FEmb K R) (net : Net K) (s0 s : Flow K) (i : Nat) : Prop where
  st : Static net s
  sc : s.scaling = s0.scaling
  ep : s.epsilon = s0.epsilon
  nd : s.nodes = s0.nodes
  fa : s.fa = s0.fa
  uq : s.uq = s0.uq
  ce : s.currentEdge = s0.currentEdge
  anti : ∀ e, e < net.E → s.flows.get (e ^^^ 1) = -s.flows.get e
  bd : ∀ e, e < net.E → s.flows.get e ≤ net.M
  cons : ∀ v, v ≤ net.n → s.imbalances.get v = -excess net s.flows.get v
  done : ∀ e, e < net.E → e < i → net.L e (dd net s e) ≤ s.flows.get e
  flU : ∀ e, e < net.E → s.flows.get e ∈ E.U

theorem PushInv.imbU {s0 i} (P : PushInv E net s0 s i) {v} (hv : v ≤ net.n) : s.imbalances.get v ∈ E.U := by
  rw [P.cons v hv]; exact E.U.neg_mem (excess_mem P.flU v)

theorem PushInv.imbI (ok : net.OK) (rm : Room E ed net C) {s0 i} (P : PushInv E net s0 s i) {v} (hv : v ≤ net.n) :
    E.I (s.imbalances.get v) := by
  refine rm.imb (P.imbU hv) ?_
  rw [P.cons v hv, abs_neg]
  exact excess_abs ok rm.M0 P.anti P.bd v

theorem PushInv.step (ok : net.OK) (rm : Room E ed net C) {s0 imax i} (po : PotOK net imax s0) (P : PushInv E net s0 s i) (hi : i < net.E) :
    ∃ s', pushEdge imax s i = .ok s' ∧ PushInv E net s0 s' (i + 1) ∧
      pushEdge imax (E.F ed s) i = .ok (E.F ed s') := by
  generalize hrR : pushEdge imax (E.F ed s) i = rR
  have hslack : E.I (net.L i (dd net s i) - s.flows.get i) := by
    have h1 := ok.L_le hi (dd net s i)
    have h2 := ok.le_L hi (dd net s i)
    have h3 := P.bd i hi
    have h4 := P.bd _ (ok.x_lt i hi)
    rw [P.anti i hi] at h4
    exact rm.small (E.U.sub_mem (rm.LU hi _) (P.flU i hi)) (by linarith) (by linarith)
  have po' : PotOK net imax s := ⟨po.1, by rw [P.sc]; exact po.2, by rw [P.sc]; exact po.3⟩
  have hlow : -net.M ≤ s.flows.get i := by
    have := P.bd _ (ok.x_lt i hi)
    rw [P.anti i hi] at this
    linarith
  have hsi := ok.src_le i hi
  have hdi := ok.dst_le i hi
  unfold pushEdge
  rw [Vec.rd_ok (by rw [P.st.esz]; exact hi), ok_bind, q_spec ok P.st po' hi (P.bd i hi) hlow, ok_bind]
  by_cases hadm : s.flows.get i < net.L i (dd net s i)
  · have hx : max 0 (net.L i (dd net s i) - s.flows.get i) = net.L i (dd net s i) - s.flows.get i :=
      max_eq_right (by linarith)
    rw [hx, if_pos (by linarith), P.st.ei i hi, P.st.ej i hi, Vec.rd_ok (by rw [P.st.isz]; omega), ok_bind,
      Vec.wr_ok _ (by rw [P.st.isz]; omega), ok_bind, Vec.rd_ok (by rw [Vec.set_size, P.st.isz]; omega), ok_bind,
      Vec.wr_ok _ (by rw [Vec.set_size, P.st.isz]; omega), ok_bind,
      Vec.set_get_ne _ _ (ok.ne i hi).symm]
    set x := net.L i (dd net s i) - s.flows.get i with hxd
    set im := (s.imbalances.set (net.src i) (s.imbalances.get (net.src i) - x)).set (net.dst i)
      (s.imbalances.get (net.dst i) + x) with him
    have st1 : Static net { s with imbalances := im } := { P.st with isz := P.st.isz }
    rw [addFlowOfEdge_ok st1 ok hi]
    have hL : s.flows.get i + x = net.L i (dd net s i) := by rw [hxd]; ring
    rw [hL]
    set fl := (s.flows.set i (net.L i (dd net s i))).set (i ^^^ 1) (-net.L i (dd net s i)) with hfl
    have hne := xor_ne i
    have v1 : fl.get i = net.L i (dd net s i) := by rw [hfl, Vec.set_get_ne _ _ hne.symm, Vec.set_get_self]
    have v2 : fl.get (i ^^^ 1) = -net.L i (dd net s i) := by rw [hfl, Vec.set_get_self]
    have v3 : ∀ k, k ≠ i → k ≠ i ^^^ 1 → fl.get k = s.flows.get k := by
      intro k h1 h2; rw [hfl, Vec.set_get_ne _ _ h2, Vec.set_get_ne _ _ h1]
    have hLx := ok.L_x_le hi (dd net s i)
    have hdd := dd_x ok s hi
    have hMU := rm.LU hi (dd net s i)
    suffices hPI : PushInv E net s0 { s with imbalances := im, flows := fl } (i + 1) by
      refine ⟨_, rfl, hPI, ?_⟩
      have i1 := hPI.imbI ok rm hsi
      have i2 := hPI.imbI ok rm hdi
      have g1 : im.get (net.src i) = s.imbalances.get (net.src i) - x := by
        rw [him, Vec.set_get_ne _ _ (ok.ne i hi), Vec.set_get_self]
      have g2 : im.get (net.dst i) = s.imbalances.get (net.dst i) + x := by rw [him, Vec.set_get_self]
      change E.I (im.get (net.src i)) at i1
      change E.I (im.get (net.dst i)) at i2
      rw [g1] at i1
      rw [g2] at i2
      have haE := sim_map (addFlowOfEdge_simE (E := E) (ed := ed) (s := { s with imbalances := im })
        (e := i) (x := x) (P.flU i hi)
        (by
          show E.I (s.flows.get i + x)
          rw [hL]
          have := rm.M0
          have := ok.L_le hi (dd net s i)
          have := ok.le_L hi (dd net s i)
          exact rm.small hMU (by linarith) (by linarith))) (addFlowOfEdge_ok st1 ok hi x)
      dsimp only at haE
      rw [hL] at haE
      rw [← hrR]
      unfold pushEdge
      simp only [FEmb.F_edges]
      rw [Vec.rd_ok (by rw [rm.esz]; exact hi), ok_bind,
        q_simE ok rm P.st po' hi (P.bd i hi) hlow (P.flU i hi), ok_bind, hx,
        if_pos ((E.pos rm.I0 hslack).2 (by linarith)), rm.ei i hi, rm.ej i hi]
      simp only [FEmb.F_imbalances]
      rw [Vec.rd_ok (by rw [Vec.map_size, P.st.isz]; omega), ok_bind, Vec.map_get, ← E.sub _ _ (P.imbU hsi) i1,
        Vec.wr_ok _ (by rw [Vec.map_size, P.st.isz]; omega), ok_bind, Vec.map_set,
        Vec.rd_ok (by rw [Vec.map_size, Vec.set_size, P.st.isz]; omega), ok_bind, Vec.map_get,
        Vec.set_get_ne _ _ (ok.ne i hi).symm, ← E.plus _ _ (P.imbU hdi) i2,
        Vec.wr_ok _ (by rw [Vec.map_size, Vec.set_size, P.st.isz]; omega), ok_bind, Vec.map_set]
      exact haE
    refine ⟨{ P.st with isz := P.st.isz, flsz := P.st.flsz }, P.sc, P.ep, P.nd, P.fa, P.uq, P.ce, ?_, ?_, ?_, ?_, ?_⟩
    · intro e he
      show fl.get (e ^^^ 1) = -fl.get e
      by_cases h1 : e = i
      · subst h1; rw [v1, v2]
      · by_cases h2 : e = i ^^^ 1
        · subst h2; rw [xor_xor, v1, v2, neg_neg]
        · rw [v3 e h1 h2, v3 _ (by rintro rfl; simp at h2) (fun h => h1 (xor_inj h)), P.anti e he]
    · intro e he
      show fl.get e ≤ net.M
      by_cases h1 : e = i
      · subst h1; rw [v1]; exact ok.L_le he _
      · by_cases h2 : e = i ^^^ 1
        · subst h2; rw [v2]; linarith [ok.le_L hi (dd net s i)]
        · rw [v3 e h1 h2]; exact P.bd e he
    · intro v hv
      show im.get v = -excess net fl.get v
      rw [excess_add ok (f := s.flows.get) (g := fl.get) (x := x) hi]
      · have h0 := P.cons v hv
        rw [him, Vec.set_get, Vec.set_get]
        by_cases h1 : v = net.dst i
        · have h2 : v ≠ net.src i := by rw [h1]; exact (ok.ne i hi).symm
          rw [if_pos h1, if_neg h2, if_pos h1, ← h1, h0]; ring
        · rw [if_neg h1, if_neg h1]
          by_cases h2 : v = net.src i
          · rw [if_pos h2, if_pos h2, ← h2, h0]; ring
          · rw [if_neg h2, if_neg h2, h0]; ring
      · intro k hk
        by_cases h1 : k = i
        · subst h1; rw [v1, if_pos rfl, if_neg hne.symm, ← hL]; ring
        · by_cases h2 : k = i ^^^ 1
          · subst h2; rw [v2, if_neg hne, if_pos rfl, P.anti i hi, ← hL]; ring
          · rw [v3 k h1 h2, if_neg h1, if_neg h2]; ring
    · intro e he hlt
      show net.L e (dd net s e) ≤ fl.get e
      by_cases h1 : e = i
      · subst h1; rw [v1]
      · by_cases h2 : e = i ^^^ 1
        · subst h2; rw [v2, hdd]; linarith
        · rw [v3 e h1 h2]; exact P.done e he (by omega)
    · intro e he
      show fl.get e ∈ E.U
      by_cases h1 : e = i
      · subst h1; rw [v1]; exact hMU
      · by_cases h2 : e = i ^^^ 1
        · subst h2; rw [v2]; exact E.U.neg_mem hMU
        · rw [v3 e h1 h2]; exact P.flU e he
  · have hpos : ¬ 0 < max 0 (net.L i (dd net s i) - s.flows.get i) := by
      rw [not_lt]; exact max_le le_rfl (by linarith [not_lt.1 hadm])
    rw [if_neg hpos]
    refine ⟨s, rfl, { P with done := ?_ }, ?_⟩
    · intro e he hlt
      by_cases h1 : e = i
      · rw [h1]; exact not_lt.1 hadm
      · exact P.done e he (by omega)
    · rw [← hrR]
      unfold pushEdge
      simp only [FEmb.F_edges]
      rw [Vec.rd_ok (by rw [rm.esz]; exact hi), ok_bind,
        q_simE ok rm P.st po' hi (P.bd i hi) hlow (P.flU i hi), ok_bind,
        if_neg (fun hc => hpos ((E.pos rm.I0 (rm.max0 hslack)).1 hc))]

/-- the second loop of `push_all_admissible_edge` -/
theorem enqueueAll (st : Static net s) (uok : UQ.OK s.uq) (hq : s.uq.queue = []) :
    ∃ uq', forRange enqueueActive 0 (net.n + 1) s = .ok { s with uq := uq' } ∧ UQ.OK uq' ∧
      uq'.isIn.size = net.n + 1 ∧ ∀ v, v ≤ net.n → (v ∈ uq'.queue ↔ 0 < s.imbalances.get v) := by
  obtain ⟨s', e1, uq', rfl, e2, e3, e4⟩ := forRange_ok (body := enqueueActive (D := K)) (hi := net.n + 1)
    (Inv := fun s' i => ∃ uq', s' = { s with uq := uq' } ∧ UQ.OK uq' ∧ uq'.isIn.size = net.n + 1 ∧
      ∀ v, v ∈ uq'.queue ↔ v < i ∧ 0 < s.imbalances.get v)
    (by
      rintro s1 i ⟨uq', rfl, h1, h2, h3⟩ hi
      obtain ⟨u, u1, u2, u3, u4⟩ := enqueueActive_spec (s := { s with uq := uq' }) (v := i)
        (by show i < s.imbalances.size; rw [st.isz]; exact hi) (by show i < uq'.isIn.size; omega) h1
      refine ⟨_, u1, u, rfl, u2, u3.trans h2, fun v => ?_⟩
      rw [u4]
      change v ∈ (if 0 < s.imbalances.get i ∧ i ∉ uq'.queue then uq'.queue ++ [i] else uq'.queue) ↔ _
      have hni : i ∉ uq'.queue := fun h => by have := ((h3 i).1 h).1; omega
      by_cases hv : v = i
      · subst hv
        by_cases h0 : 0 < s.imbalances.get v <;> simp [h0, hni]
      · have : v < i + 1 ↔ v < i := by omega
        rw [this, ← h3 v]
        split <;> simp [hv])
    (net.n + 1) 0 s ⟨s.uq, rfl, uok, st.qsz, by simp [hq]⟩ (by omega)
  exact ⟨uq', e1, e2, e3, fun v hv => by rw [e4]; simp; omega⟩

theorem enqueueActive_imb {i : Nat} {s s' : Flow K} (h : enqueueActive s i = .ok s') : s'.imbalances = s.imbalances := by
  unfold enqueueActive at h
  obtain ⟨b, -, h⟩ := bind_eq_ok.1 h
  split at h
  · obtain ⟨uq, -, h⟩ := bind_eq_ok.1 h
    cases h; rfl
  · cases h; rfl

/-- the fuel which one phase needs -/
def phaseFuel (net : Net K) (B : Nat) : Nat := roundFuel net.n net.E B

theorem phaseFuel_ge (B : Nat) : net.n + 2 ≤ phaseFuel net B ∧ net.E + 1 ≤ phaseFuel net B := by
  unfold phaseFuel roundFuel
  omega

/-- the state when `refine` starts -/
theorem PInv.begin (ok : net.OK) (rm : Room E ed net (C - net.E * net.M)) {imax c B} (P : PInv E C net c s) (hep : s.epsilon.tdiv 2 = h)
    (St : Start net imax h c s.flows.get s.scaling.get B) :
    ∃ (s' : Flow K) (f w : Nat → K), pushAllAdmissibleEdge imax (initialization s) = .ok s' ∧
      RInv E (C - net.E * net.M) net h c s.scaling.get B s' f w (fun _ => 0) (fun _ => 0) ∧
      pushAllAdmissibleEdge imax (initialization (E.F ed s)) = .ok (E.F ed s') := by
  set si := initialization s with hsi
  have sti : Static net si := { P.st with csz := P.st.csz }
  have hpos := St.hpos
  have poi : PotOK net imax si := by
    refine ⟨St.N_le, St.nonneg, fun v hv => ?_⟩
    have := St.fit v hv
    have := St.cpos
    have : 0 ≤ (net.n : Int) * (c + h) := by positivity
    show s.scaling.get v ≤ imax
    omega
  have Pi : PushInv E net si si 0 := by
    refine ⟨sti, rfl, rfl, rfl, rfl, rfl, rfl, P.anti, P.bd, ?_, by simp, P.flU⟩
    intro v hv
    show s.imbalances.get v = -excess net s.flows.get v
    rw [P.bal v hv, P.circ v hv, neg_zero]
  obtain ⟨s1, a1, a2, aE⟩ := forRange_ok2 (body := pushEdge imax) (hi := net.E) (φ := E.F ed) (bodyR := pushEdge imax)
    (Inv := fun s i => PushInv E net si s i) (fun s i P hi => P.step ok rm poi hi) net.E 0 si Pi (by omega)
  obtain ⟨uq', b1, b2, b3, b4⟩ := enqueueAll a2.st (by rw [a2.uq]; exact P.uok) (by rw [a2.uq]; exact P.qe)
  set s2 : Flow K := { s1 with uq := uq' } with hs2
  obtain ⟨w, hw, hwU⟩ := P.rep
  have hroot : ∀ v, v ≤ net.n → s2.fa.get v = none := by
    intro v hv; show s1.fa.get v = none; rw [a2.fa]; exact P.root v hv
  have hdone : ∀ e, e < net.E → net.L e (dd net s2 e) ≤ s2.flows.get e := fun e he => a2.done e he he
  have hcur : ∀ v, s2.currentEdge.get v = 0 := by
    intro v; show s1.currentEdge.get v = 0; rw [a2.ce]; rfl
  have hI : FInv E (C - net.E * net.M) net h s2 s2.flows.get w (fun _ => 0) := by
    refine ⟨{ a2.st with qsz := b3 }, ?_, a2.anti, a2.bd, a2.cons, ?_, a2.anti, a2.bd, ?_, fun _ _ _ _ => rfl, ?_, ?_, ?_,
      ⟨a2.flU, a2.flU, fun v hv => (hwU v hv).1, ?_, fun v hv => (hwU v hv).2.2⟩⟩
    · show RepE E.toEmb s1.nodes s1.fa.get w
      rw [a2.nd, a2.fa]; exact hw
    · intro e he
      exact (ok.L_mono he (by omega)).trans (hdone e he)
    · intro v hv j hj; rw [hroot v hv] at hj; simp at hj
    · intro v hv i hi; rw [hcur] at hi; omega
    · intro e he hlt; exact absurd hlt (not_lt.2 (hdone e he))
    · intro v hv j hj; rw [hroot v hv] at hj; simp at hj
    · intro v hv
      show C - net.E * net.M ≤ w v + s1.imbalances.get v
      have h1 := excess_abs ok rm.M0 a2.anti a2.bd v
      rw [← abs_neg, ← a2.cons v hv] at h1
      have h2 := (abs_le.1 h1).1
      have h3 := (hwU v hv).2.1
      linarith
  have hsc : s2.scaling = s.scaling := a2.sc
  have Rv : RInv E (C - net.E * net.M) net h c s.scaling.get B s2 s2.flows.get w (fun _ => 0) (fun _ => 0) := by
    refine ⟨⟨hI, b2, fun v hv _ => hroot v hv, b4⟩, ?_, ?_, by simp, ?_, by simp⟩
    · show s1.epsilon.tdiv 2 = h
      rw [a2.ep]; exact hep
    · intro v hv; rw [hsc]; simp
    · intro v hv
      have := St.cpos
      have : 0 ≤ (net.n : Int) * (c + h) := by positivity
      simp; omega
  refine ⟨s2, s2.flows.get, w, ?_, Rv, ?_⟩
  · unfold Flow.pushAllAdmissibleEdge
    rw [sti.esz, a1, ok_bind, a2.st.n, b1]
  · have bE := sim_map (forRange_sim (E.F ed) (fun s _ => s.imbalances = s1.imbalances) (hi := net.n + 1)
      (fun s i hs hi => enqueueActive_simE (E := E) (ed := ed) (s := s) (i := i) rm.I0
        (by rw [hs]; exact a2.imbI ok rm (by omega)))
      (fun s i s' hs _ h => (enqueueActive_imb h).trans hs)
      (net.n + 1) 0 s1 rfl (by omega)) b1
    have hE : initialization (E.F ed s) = E.F ed si := rfl
    unfold Flow.pushAllAdmissibleEdge
    rw [hE, FEmb.F_edges, rm.esz, aE, ok_bind, FEmb.F_n, a2.st.n, bE]

theorem PInv.phase (ok : net.OK) (rm : Room E ed net (C - net.E * net.M)) {imax c B fuel} (P : PInv E C net c s) (hep : s.epsilon.tdiv 2 = h)
    (St : Start net imax h c s.flows.get s.scaling.get B) (hfuel : phaseFuel net B ≤ fuel) :
    ∃ (s' : Flow K) (k : Nat → Nat), phase imax fuel s = .ok s' ∧ PInv E (C - net.E * net.M) net h s' ∧ s'.epsilon = h ∧
      (∀ v, v ≤ net.n → s'.scaling.get v = s.scaling.get v + h * k v) ∧ (∀ v, v ≤ net.n → k v ≤ B ∧ h * k v ≤ net.n * (c + h) + h) ∧
      Flow.phase imax fuel (E.F ed s) = .ok (E.F ed s') := by
  obtain ⟨s2, f, w, a1, Rv, aE⟩ := P.begin ok rm hep St
  obtain ⟨g1, g2⟩ := phaseFuel_ge (net := net) B
  obtain ⟨s3, k, c1, c2, c3, c4, c5, cE⟩ := Rv.refine ok rm (by omega) (by omega) hfuel St
  refine ⟨{ s3 with epsilon := s3.epsilon.tdiv 2 }, k, ?_, ?_, c3, c4, c5, ?_⟩
  · unfold Flow.phase
    dsimp only
    rw [a1, ok_bind, c1, ok_bind]
  · exact ⟨{ c2.st with }, c2.rep, c2.root, c2.anti, c2.bd, c2.circ, c2.bal, c2.opt, c2.uok, c2.qe, c2.flU⟩
  · unfold Flow.phase
    dsimp only
    rw [aE, ok_bind, cE, ok_bind]
    rfl

/-- less is needed for fewer phases -/
theorem Room.up {C' : K} (rm : Room E ed net C) (h : C ≤ C') (h' : C' ≤ -(net.E * net.M)) : Room E ed net C' :=
  { rm with
    C_le := h'
    mem := fun x hx hb => rm.mem x hx (hb.trans (by linarith)) }

/-! ### All phases -/

/-- Phases whose starting point is `epsilon`-optimal, with `epsilon = 2 ^ t`. -/
theorem PInv.phases_aux (ok : net.OK) {imax fuel0} (hN : net.N ≤ imax) (hfuel0 : phaseFuel net (3 * net.n + 1) ≤ fuel0) :
    ∀ (t : Nat) (C C' : K) (s : Flow K) (fuel : Nat), Room E ed net C' → C ≤ 0 → C' ≤ C - t * (net.E * net.M) →
      PInv E C net (2 ^ t) s → s.epsilon = 2 ^ t → t < fuel →
      (∀ v, v ≤ net.n → 0 ≤ s.scaling.get v) →
      (∀ v, v ≤ net.n → s.scaling.get v + (3 * net.n + 1) * (2 ^ t - 1) ≤ imax) →
      ∃ s', whileLoop (fun s : Flow K => .ok (decide (s.epsilon ≥ 2))) (Flow.phase imax fuel0) fuel s = .ok s' ∧
        PInv E (C - t * (net.E * net.M)) net 1 s' ∧ s'.epsilon = 1 ∧
        (∀ v, v ≤ net.n → 0 ≤ s'.scaling.get v ∧ s'.scaling.get v ≤ s.scaling.get v + (3 * net.n + 1) * (2 ^ t - 1)) ∧
        whileLoop (fun s : Flow R => .ok (decide (s.epsilon ≥ 2))) (Flow.phase imax fuel0) fuel (E.F ed s) = .ok (E.F ed s') := by
  intro t
  induction t with
  | zero =>
    intro C C' s fuel rm hC hCC P hep hf h0 h1
    obtain ⟨fuel, rfl⟩ : ∃ m, fuel = m + 1 := ⟨fuel - 1, by omega⟩
    refine ⟨s, ?_, by simpa using P, by simpa using hep, fun v hv => ⟨h0 v hv, by simp⟩, ?_⟩
    · unfold whileLoop
      rw [ok_bind, hep]; rfl
    · unfold whileLoop
      rw [ok_bind, FEmb.F_epsilon, hep]; rfl
  | succ t ih =>
    intro C C' s fuel rm hC hCC P hep hf h0 h1
    obtain ⟨fuel, rfl⟩ : ∃ m, fuel = m + 1 := ⟨fuel - 1, by omega⟩
    have hpow : (2 : Int) ^ (t + 1) = 2 * 2 ^ t := by rw [pow_succ]; ring
    have htp : (0 : Int) < 2 ^ t := by positivity
    have hn0 : (0 : Int) ≤ net.n := by omega
    have hdiv : s.epsilon.tdiv 2 = 2 ^ t := by
      rw [hep, hpow, Int.mul_tdiv_cancel_left _ (by norm_num)]
    have e0 : (net.n : Int) * (2 ^ (t + 1) + 2 ^ t) + 2 ^ t = (3 * net.n + 1) * 2 ^ t := by rw [hpow]; ring
    have e1 : ((3 * net.n + 1) * (2 ^ (t + 1) - 1) : Int) = (3 * net.n + 1) * 2 ^ t + (3 * net.n + 1) * (2 ^ t - 1) := by
      rw [hpow]; ring
    have e2 : (0 : Int) ≤ (3 * net.n + 1) * (2 ^ t - 1) := Int.mul_nonneg (by omega) (by omega)
    have St : Start net imax (2 ^ t) (2 ^ (t + 1)) s.flows.get s.scaling.get (3 * net.n + 1) := by
      refine ⟨htp, by positivity, hN, P.anti, P.circ, P.opt, h0, fun v hv => ?_, ?_⟩
      · have := h1 v hv
        rw [e0]; omega
      · rw [e0]; push_cast; linarith
    have hEM := rm.EM0
    have ht0 : (0 : K) ≤ t * (net.E * net.M) := mul_nonneg (Nat.cast_nonneg _) hEM
    have hsplit : C - ((t + 1 : Nat) : K) * (net.E * net.M) = C - net.E * net.M - t * (net.E * net.M) := by
      push_cast; ring
    rw [hsplit] at hCC ⊢
    obtain ⟨s1, k, p1, p2, p3, p4, p5, pE⟩ := P.phase ok (rm.up (by linarith) (by linarith)) hdiv St hfuel0
    obtain ⟨s2, d1, d2, d3, d4, dE⟩ := ih _ C' s1 fuel rm (by linarith) hCC p2 p3 (by omega)
      (fun v hv => by
        rw [p4 v hv]
        have := h0 v hv
        have : 0 ≤ (2 : Int) ^ t * k v := by positivity
        omega)
      (fun v hv => by
        rw [p4 v hv]
        have := h1 v hv
        have := (p5 v hv).2
        rw [e0] at this
        omega)
    refine ⟨s2, ?_, d2, d3, fun v hv => ⟨(d4 v hv).1, ?_⟩, ?_⟩
    · unfold whileLoop
      rw [ok_bind, decide_eq_true (by rw [hep]; omega)]
      simp only [if_true]
      rw [p1, ok_bind, d1]
    rotate_right
    · unfold whileLoop
      rw [ok_bind, FEmb.F_epsilon, decide_eq_true (by rw [hep]; omega)]
      simp only [if_true]
      rw [pE, ok_bind, dE]
    · have := (d4 v hv).2
      rw [p4 v hv] at this
      have := (p5 v hv).2
      rw [e0] at this
      omega

/-- fuel for all phases: `B` bounds the number of relabellings of a node in the first one -/
def flowFuel (net : Net K) (t B : Nat) : Nat := phaseFuel net (max B (3 * net.n + 1)) + t + 2

theorem phaseFuel_mono {B B' : Nat} (hB : B ≤ B') : phaseFuel net B ≤ phaseFuel net B' := by
  unfold phaseFuel roundFuel
  have := Nat.mul_le_mul_right (3 * net.E + (net.n + 1)) hB
  omega

/-- All phases, from `epsilon = 2 ^ (t + 1)` and a start which is `c`-optimal for potentials 0. -/
theorem PInv.phases (ok : net.OK) {t : Nat} (rm : Room E ed net (C - (t + 1 : Nat) * (net.E * net.M))) (hC : C ≤ 0) {imax c : Int} {fuel B : Nat} (hN : net.N ≤ imax) (P : PInv E C net c s)
    (hfuel : flowFuel net t B ≤ fuel) (hep : s.epsilon = 2 ^ (t + 1)) (hc : 0 ≤ c)
    (h0 : ∀ v, v ≤ net.n → s.scaling.get v = 0)
    (hB : net.n * (c + 2 ^ t) + 2 ^ t ≤ 2 ^ t * B)
    (hfit : net.n * (c + 2 ^ t) + 2 ^ t + (3 * net.n + 1) * (2 ^ t - 1) ≤ imax) :
    ∃ s', Flow.phases imax fuel s = .ok s' ∧ PInv E (C - (t + 1 : Nat) * (net.E * net.M)) net 1 s' ∧ s'.epsilon = 1 ∧
      (∀ v, v ≤ net.n → 0 ≤ s'.scaling.get v ∧
        s'.scaling.get v ≤ net.n * (c + 2 ^ t) + 2 ^ t + (3 * net.n + 1) * (2 ^ t - 1)) ∧
      Flow.phases imax fuel (E.F ed s) = .ok (E.F ed s') := by
  obtain ⟨fuel, rfl⟩ : ∃ m, fuel = m + 1 := ⟨fuel - 1, by unfold flowFuel at hfuel; omega⟩
  have hf1 := phaseFuel_mono (net := net) (Nat.le_max_left B (3 * net.n + 1))
  have hf2 := phaseFuel_mono (net := net) (Nat.le_max_right B (3 * net.n + 1))
  unfold flowFuel at hfuel
  have hpow : (2 : Int) ^ (t + 1) = 2 * 2 ^ t := by rw [pow_succ]; ring
  have htp : (0 : Int) < 2 ^ t := by positivity
  have hdiv : s.epsilon.tdiv 2 = 2 ^ t := by
    rw [hep, hpow, Int.mul_tdiv_cancel_left _ (by norm_num)]
  have e2 : (0 : Int) ≤ (3 * net.n + 1) * (2 ^ t - 1) := Int.mul_nonneg (by omega) (by omega)
  have St : Start net imax (2 ^ t) c s.flows.get s.scaling.get B := by
    refine ⟨htp, hc, hN, P.anti, P.circ, P.opt, fun v hv => (h0 v hv).ge, fun v hv => ?_, hB⟩
    rw [h0 v hv]; omega
  have hEM := rm.EM0
  have ht0 : (0 : K) ≤ t * (net.E * net.M) := mul_nonneg (Nat.cast_nonneg _) hEM
  have hsplit : C - ((t + 1 : Nat) : K) * (net.E * net.M) = C - net.E * net.M - t * (net.E * net.M) := by
    push_cast; ring
  rw [hsplit] at rm ⊢
  obtain ⟨s1, k, p1, p2, p3, p4, p5, pE⟩ := P.phase ok (rm.up (by linarith) (by linarith)) hdiv St
    (show _ ≤ fuel + 1 by omega)
  obtain ⟨s2, d1, d2, d3, d4, dE⟩ := PInv.phases_aux ok hN (show _ ≤ fuel + 1 by omega) t _ _ s1 fuel rm (by linarith)
      le_rfl p2 p3 (by omega)
      (fun v hv => by
        rw [p4 v hv, h0 v hv]
        have : 0 ≤ (2 : Int) ^ t * k v := by positivity
        omega)
      (fun v hv => by
        rw [p4 v hv, h0 v hv]
        have := (p5 v hv).2
        omega)
  refine ⟨s2, ?_, d2, d3, fun v hv => ⟨(d4 v hv).1, ?_⟩, ?_⟩
  · unfold Flow.phases whileLoop
    rw [ok_bind, decide_eq_true (by rw [hep]; omega)]
    simp only [if_true]
    rw [p1, ok_bind, d1]
  rotate_right
  · unfold Flow.phases whileLoop
    rw [ok_bind, FEmb.F_epsilon, decide_eq_true (by rw [hep]; omega)]
    simp only [if_true]
    rw [pE, ok_bind, dE]
  · have := (d4 v hv).2
    rw [p4 v hv, h0 v hv] at this
    have := (p5 v hv).2
    omega

/-! ### The single phases -/

/-- `k` times `f` -/
def iterN {α : Type} (f : α → Res α) : Nat → α → Res α
  | 0, a => .ok a
  | k + 1, a => do
    let a ← iterN f k a
    f a

/-- optimality before phase `k` -/
def slack (c : Int) (t k : Nat) : Int := if k = 0 then c else 2 ^ (t + 1 - k)

/-- bound on the number of relabellings of a node in phase `k` -/
def relabels (n B k : Nat) : Nat := if k = 0 then B else 3 * n + 1

/-- the first `k` phases, with the change `g` of the state before each of them -/
theorem PInv.nthG (ok : net.OK) {imax c : Int} {fuel t B : Nat} (hN : net.N ≤ imax) (P : PInv (FEmb.id K) 0 net c s) (hM : 0 ≤ net.M)
    (hfuel : flowFuel net t B ≤ fuel) (hep : s.epsilon = 2 ^ (t + 1)) (hc : 0 ≤ c)
    (h0 : ∀ v, v ≤ net.n → s.scaling.get v = 0)
    (hB : net.n * (c + 2 ^ t) + 2 ^ t ≤ 2 ^ t * B)
    (hfit : net.n * (c + 2 ^ t) + 2 ^ t + (3 * net.n + 1) * (2 ^ t - 1) ≤ imax)
    {g : Flow K → Flow K} (hg : ∀ C c s, C ≤ 0 → PInv (FEmb.id K) C net c s → PInv (FEmb.id K) C net c (g s))
    (hge : ∀ s, (g s).epsilon = s.epsilon) (hgs : ∀ s, (g s).scaling = s.scaling) (hgf : ∀ s, (g s).flows = s.flows) :
    ∀ k, k ≤ t + 1 → ∃ s', iterN (fun s => Flow.phase imax fuel (g s)) k s = .ok s' ∧ (∃ C, C ≤ 0 ∧ PInv (FEmb.id K) C net (slack c t k) s') ∧
      s'.epsilon = 2 ^ (t + 1 - k) ∧
      (k ≤ t → Start net imax (2 ^ (t - k)) (slack c t k) s'.flows.get s'.scaling.get (relabels net.n B k) ∧
        phaseFuel net (relabels net.n B k) ≤ fuel) := by
  have hf1 := phaseFuel_mono (net := net) (Nat.le_max_left B (3 * net.n + 1))
  have hf2 := phaseFuel_mono (net := net) (Nat.le_max_right B (3 * net.n + 1))
  unfold flowFuel at hfuel
  have hn0 : (0 : Int) ≤ net.n := by omega
  have key : ∀ k, k ≤ t + 1 → ∃ s', iterN (fun s => Flow.phase imax fuel (g s)) k s = .ok s' ∧ (∃ C, C ≤ 0 ∧ PInv (FEmb.id K) C net (slack c t k) s') ∧
      s'.epsilon = 2 ^ (t + 1 - k) ∧ (k = 0 → s' = s) ∧ (∀ v, v ≤ net.n → 0 ≤ s'.scaling.get v) ∧
      (1 ≤ k → ∀ v, v ≤ net.n → s'.scaling.get v + (3 * net.n + 1) * (2 ^ (t + 1 - k) - 1) ≤ imax) ∧
      (k ≤ t → Start net imax (2 ^ (t - k)) (slack c t k) s'.flows.get s'.scaling.get (relabels net.n B k) ∧
        phaseFuel net (relabels net.n B k) ≤ fuel) := by
    intro k
    induction k with
    | zero =>
      intro _
      refine ⟨s, rfl, ⟨0, le_rfl, P⟩, hep, fun _ => rfl, fun v hv => (h0 v hv).ge, by omega, fun _ => ⟨?_, by simp [relabels]; omega⟩⟩
      have e2 : (0 : Int) ≤ (3 * net.n + 1) * (2 ^ t - 1) :=
        Int.mul_nonneg (by omega) (by have : (0 : Int) < 2 ^ t := by positivity
                                      omega)
      refine ⟨by positivity, hc, hN, P.anti, P.circ, P.opt, fun v hv => (h0 v hv).ge, fun v hv => ?_, ?_⟩
      · rw [h0 v hv]; simp only [slack, if_true, Nat.sub_zero]; omega
      · simpa [slack, relabels] using hB
    | succ k ih =>
      intro hk
      obtain ⟨s1, a1, ⟨C, hC, a2⟩, a3, a4, a5, a6, a7⟩ := ih (by omega)
      obtain ⟨St, hph⟩ := a7 (by omega)
      have hpow : (2 : Int) ^ (t + 1 - k) = 2 * 2 ^ (t - k) := by
        rw [show t + 1 - k = (t - k) + 1 by omega, pow_succ]; ring
      have htp : (0 : Int) < 2 ^ (t - k) := by positivity
      have hdiv : s1.epsilon.tdiv 2 = 2 ^ (t - k) := by
        rw [a3, hpow, Int.mul_tdiv_cancel_left _ (by norm_num)]
      have hEM : 0 ≤ (net.E : K) * net.M := mul_nonneg (Nat.cast_nonneg _) hM
      obtain ⟨ed, rm⟩ := room_id (net := net) (C := C - net.E * net.M) hM (by linarith)
      obtain ⟨s2, kk, p1, p2, p3, p4, p5, -⟩ := (hg C _ s1 hC a2).phase (h := 2 ^ (t - k)) ok rm (by rw [hge]; exact hdiv) (by rw [hgs, hgf]; exact St) hph
      simp only [hgs] at p4
      have hsk : slack c t (k + 1) = 2 ^ (t - k) := by simp [slack]
      have hexp : t + 1 - (k + 1) = t - k := by omega
      have b5 : ∀ v, v ≤ net.n → 0 ≤ s2.scaling.get v := fun v hv => by
        rw [p4 v hv]
        have := a5 v hv
        have : 0 ≤ (2 : Int) ^ (t - k) * kk v := by positivity
        omega
      have b6 : ∀ v, v ≤ net.n → s2.scaling.get v + (3 * net.n + 1) * (2 ^ (t - k) - 1) ≤ imax := fun v hv => by
        rw [p4 v hv]
        have h5 := (p5 v hv).2
        by_cases hk0 : k = 0
        · subst hk0
          rw [a4 rfl, h0 v hv]
          simp only [slack, if_true, Nat.sub_zero] at h5 ⊢
          omega
        · have h6 := a6 (by omega) v hv
          rw [hpow] at h6
          simp only [slack, hk0, if_false] at h5
          rw [hpow] at h5
          have e1 : ((3 * net.n + 1) * (2 * 2 ^ (t - k) - 1) : Int) =
            (net.n * (2 * 2 ^ (t - k) + 2 ^ (t - k)) + 2 ^ (t - k)) + (3 * net.n + 1) * (2 ^ (t - k) - 1) := by ring
          omega
      refine ⟨s2, ?_, ⟨C - net.E * net.M, by linarith, by rw [hsk]; exact p2⟩, by rw [p3, hexp], by omega, b5, fun _ => by rw [hexp]; exact b6, fun hkt => ⟨?_, ?_⟩⟩
      · show (iterN (fun s => Flow.phase imax fuel (g s)) k s >>= fun s => Flow.phase imax fuel (g s)) = _
        rw [a1, ok_bind, p1]
      · have hpow' : (2 : Int) ^ (t - k) = 2 * 2 ^ (t - (k + 1)) := by
          rw [show t - k = (t - (k + 1)) + 1 by omega, pow_succ]; ring
        rw [hsk]
        have htp' : (0 : Int) < 2 ^ (t - (k + 1)) := by positivity
        have e0 : (net.n : Int) * (2 ^ (t - k) + 2 ^ (t - (k + 1))) + 2 ^ (t - (k + 1)) = (3 * net.n + 1) * 2 ^ (t - (k + 1)) := by
          rw [hpow']; ring
        refine ⟨htp', htp.le, hN, p2.anti, p2.circ, p2.opt, b5, fun v hv => ?_, ?_⟩
        · have := b6 v hv
          rw [e0]
          rw [hpow'] at this
          have e1 : ((3 * net.n + 1) * (2 * 2 ^ (t - (k + 1)) - 1) : Int) =
            (3 * net.n + 1) * 2 ^ (t - (k + 1)) + (3 * net.n + 1) * (2 ^ (t - (k + 1)) - 1) := by ring
          have e2 : (0 : Int) ≤ (3 * net.n + 1) * (2 ^ (t - (k + 1)) - 1) := Int.mul_nonneg (by omega) (by omega)
          omega
        · rw [e0]; simp [relabels]; linarith
      · simp [relabels]; omega
  intro k hk
  obtain ⟨s1, a1, a2, a3, -, -, -, a7⟩ := key k hk
  exact ⟨s1, a1, a2, a3, a7⟩

theorem PInv.nth (ok : net.OK) {imax c : Int} {fuel t B : Nat} (hN : net.N ≤ imax) (P : PInv (FEmb.id K) 0 net c s) (hM : 0 ≤ net.M)
    (hfuel : flowFuel net t B ≤ fuel) (hep : s.epsilon = 2 ^ (t + 1)) (hc : 0 ≤ c)
    (h0 : ∀ v, v ≤ net.n → s.scaling.get v = 0)
    (hB : net.n * (c + 2 ^ t) + 2 ^ t ≤ 2 ^ t * B)
    (hfit : net.n * (c + 2 ^ t) + 2 ^ t + (3 * net.n + 1) * (2 ^ t - 1) ≤ imax) :
    ∀ k, k ≤ t + 1 → ∃ s', iterN (Flow.phase imax fuel) k s = .ok s' ∧ (∃ C, C ≤ 0 ∧ PInv (FEmb.id K) C net (slack c t k) s') ∧
      s'.epsilon = 2 ^ (t + 1 - k) ∧
      (k ≤ t → Start net imax (2 ^ (t - k)) (slack c t k) s'.flows.get s'.scaling.get (relabels net.n B k) ∧
        phaseFuel net (relabels net.n B k) ≤ fuel) :=
  nthG ok hN P hM hfuel hep hc h0 hB hfit (g := fun s => s) (fun _ _ _ _ P => P) (fun _ => rfl) (fun _ => rfl) fun _ => rfl

end AHO.Flow
