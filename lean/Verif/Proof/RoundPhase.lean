import Verif.Proof.RoundLoop
import Verif.Proof.CSInit
import Verif.Proof.CSCost
/-!
# `CostScaling::MinCost` with rounded capacities: termination
-/

namespace AHO.CS
open AHO CostScaling
set_option linter.unusedSectionVars false

variable {D : Type} [LinearOrder D] [Zero D] [Add D] [Sub D] [Neg D] [Mul D] [Div D] [IntCast D] [BEq D] [LawfulBEq D]
variable {net : Net} {s0 s s' : Refining D} {Z : Nat → Prop} {u : Nat}

/-- While negative edges are being saturated; those in `Z` are done. -/
structure SatR (net : Net) (s0 : Refining D) (Z : Nat → Prop) (s : Refining D) : Prop extends RStatic net s where
  p : s.p = s0.p
  incp : s.incp = s0.incp
  cur : s.current_edge = s0.current_edge
  eps : s.epsilon = s0.epsilon
  vis : s.vis = s0.vis
  st : s.st = s0.st
  nonneg : ∀ e, e < net.E → 0 ≤ cap s.toCostScaling e
  done : ∀ e, e < net.E → Z e → rc net s0.p.get e < 0 → cap s.toCostScaling e = 0

section sat
variable (A : PosArith D) (hself : ∀ a : D, a - a = 0) (hrev : ∀ e, e < net.E → rc net s0.p.get e < 0 → ¬ rc net s0.p.get (e ^^^ 1) < 0)
include A hself hrev

theorem SatR.step (ok : net.OK) (I : SatR net s0 Z s) {e : Nat} (he : e < net.E) :
    ∃ s', saturate (net.src e) e s = .ok s' ∧ SatR net s0 (fun x => Z x ∨ x = e) s' := by
  rcases saturate_spec hself ok I.toRStatic he with ⟨h1, h2⟩ | ⟨h1, s', h2, m, h3, h4⟩
  · refine ⟨s, h2, { I with done := fun x hx hd hr => ?_ }⟩
    rcases hd with hd | rfl
    · exact I.done x hx hd hr
    · rw [I.p] at h1; exact absurd hr h1
  · have hp := m.p.trans I.p
    refine ⟨s', h2, ⟨m.st, hp, m.incp.trans I.incp, m.cur.trans I.cur, m.eps.trans I.eps, h3.trans I.vis,
      h4.trans I.st, fun x hx => ?_, fun x hx hd hr => ?_⟩⟩
    · rw [m.cap x hx]; exact moved_nonneg' A I.nonneg ok he (I.nonneg e he) le_rfl x hx
    · rw [m.cap x hx]
      unfold moved
      by_cases hxe : x = e
      · rw [if_pos hxe, hself]
      · have hd : Z x := hd.resolve_right hxe
        rw [if_neg hxe]
        by_cases hx1 : x = e ^^^ 1
        · rw [hx1] at hr
          rw [I.p] at h1
          exact absurd hr (hrev e he h1)
        · rw [if_neg hx1]; exact I.done x hx hd hr

theorem satLoopR (ok : net.OK) {b : Nat × Refining D × Option Nat → Res (Nat × Refining D × Option Nat)}
    (hb : ∀ c s i, b (c, s, some i) = (do
      let s ← saturate u i s
      let e ← s.edge.rd i
      .ok (c + 1, s, e.next))) : ∀ (L : List Nat) (fuel c : Nat) (s : Refining D) (hd : Option Nat) (Z : Nat → Prop), L.length < fuel →
    SatR net s0 Z s → Chain net.nxt hd L → (∀ e ∈ L, e < net.E ∧ net.src e = u) →
    ∃ s', whileLoop (fun (x : Nat × Refining D × Option Nat) => .ok x.2.2.isSome) b fuel (c, s, hd) = .ok (c + L.length, s', none) ∧
      SatR net s0 (fun x => Z x ∨ x ∈ L) s' := by
  intro L
  induction L with
  | nil =>
    intro fuel c s hd D hf I hc _
    obtain ⟨fuel, rfl⟩ : ∃ g, fuel = g + 1 := ⟨fuel - 1, by simp at hf; omega⟩
    have : hd = none := hc
    subst this
    exact ⟨s, rfl, by simpa using I⟩
  | cons e L ih =>
    intro fuel c s hd D hf I hc hL
    obtain ⟨fuel, rfl⟩ : ∃ g, fuel = g + 1 := ⟨fuel - 1, by simp at hf; omega⟩
    obtain ⟨rfl, hc2⟩ := hc
    obtain ⟨he, rfl⟩ := hL e (by simp)
    obtain ⟨s1, e1, I1⟩ := I.step A hself hrev ok he
    unfold whileLoop
    simp only [ok_bind, Option.isSome_some, if_true]
    rw [hb, e1, ok_bind, Vec.rd_ok (by rw [I1.esz]; exact he), ok_bind, I1.edge e he, ok_bind]
    obtain ⟨s2, e2, I2⟩ := ih fuel (c + 1) s1 (net.nxt e) _ (by simp at hf; omega) I1 hc2 fun x hx => hL x (by simp [hx])
    refine ⟨s2, by rw [e2, List.length_cons, Nat.add_assoc, Nat.add_comm 1], { I2 with done := fun x hx hd hr => I2.done x hx ?_ hr }⟩
    rcases hd with hd | hd
    · exact Or.inl (Or.inl hd)
    · rcases List.mem_cons.1 hd with hd | hd
      · exact Or.inl (Or.inr hd)
      · exact Or.inr hd

theorem satAllR (ok : net.OK) (I : SatR net s0 (fun _ => False) s) {fuel : Nat} (hf : net.E < fuel) :
    ∃ s', forRange (saturateNodeC fuel) 0 net.N (0, s) = .ok (net.E, s') ∧ SatR net s0 (fun _ => True) s' := by
  obtain ⟨⟨c, s'⟩, e1, hc, I1⟩ := forRange_ok (body := saturateNodeC fuel) (hi := net.N)
    (Inv := fun x i => x.1 = ∑ u ∈ Finset.range i, net.deg u ∧ SatR net s0 (fun e => net.src e < i) x.2)
    (by
      rintro ⟨c, s⟩ i ⟨hc, I⟩ hi
      dsimp only at hc I
      unfold saturateNodeC
      dsimp only
      rw [Vec.rd_ok (by rw [I.hsz]; exact hi), ok_bind, I.head i hi]
      obtain ⟨s', e1, I1⟩ := satLoopR A hself hrev (u := i) ok (b := fun x => match x.2.2 with
        | none => .ok x
        | some j => do
          let s ← saturate i j x.2.1
          let e ← s.edge.rd j
          .ok (x.1 + 1, s, e.next)) (fun _ _ _ => rfl) (net.adj i) fuel c s (net.head i) _
        (by have := ok.len hi; omega) I (ok.chain i hi) (fun e he => (ok.adj i hi e).1 he)
      refine ⟨(c + (net.adj i).length, s'), by erw [e1]; rfl, ?_, { I1 with done := fun x hx hd hr => I1.done x hx ?_ hr }⟩
      · show c + (net.adj i).length = _
        rw [Finset.sum_range_succ, ok.deg_eq hi, hc]
      rcases Nat.lt_or_ge (net.src x) i with h1 | h1
      · exact Or.inl h1
      · exact Or.inr ((ok.adj i hi x).2 ⟨hx, by omega⟩))
    net.N 0 (0, s) ⟨rfl, { I with done := fun x hx hd hr => I.done x hx (by omega) hr }⟩ (by omega)
  have hc : c = net.E := hc.trans ok.sum_deg
  subst hc
  exact ⟨s', e1, { I1 with done := fun x hx _ hr => I1.done x hx (ok.src_lt x hx) hr }⟩

end sat

theorem pushAllR (I : RStatic net s) (hst : s.st = []) (hvis : ∀ v, v < net.N → s.vis.get v = false) :
    ∃ vis st, forRange pushActive 0 net.N s = .ok { s with st := st, vis := vis } ∧ vis.size = net.N ∧
      Stk net { s with st := st, vis := vis } (fun _ => False) := by
  obtain ⟨s', e1, vis, st, rfl, h2, h3, h4, h5⟩ := forRange_ok (body := pushActive) (hi := net.N)
    (Inv := fun s1 i => ∃ (vis : Vec Bool) (st : List Nat), s1 = { s with st := st, vis := vis } ∧ vis.size = net.N ∧ st.Nodup ∧
      (∀ v, v ∈ st ↔ v < i ∧ 0 < s.excess.get v) ∧ ∀ v, v < net.N → (vis.get v = true ↔ v ∈ st))
    (by
      rintro s1 i ⟨vis, st, rfl, h2, h3, h4, h5⟩ hi
      unfold pushActive
      rw [Vec.rd_ok (by rw [show _ = net.N from I.xsz]; exact hi), ok_bind]
      by_cases hp : 0 < s.excess.get i
      · rw [if_pos hp, Vec.wr_ok _ (by rw [h2]; exact hi), ok_bind]
        refine ⟨_, rfl, vis.set i true, i :: st, rfl, h2, ?_, fun v => ?_, fun v hv => ?_⟩
        · refine List.nodup_cons.2 ⟨fun hc => ?_, h3⟩
          have := ((h4 i).1 hc).1
          omega
        · rw [List.mem_cons, h4]
          constructor
          · rintro (rfl | ⟨a, b⟩)
            · exact ⟨by omega, hp⟩
            · exact ⟨by omega, b⟩
          · rintro ⟨a, b⟩
            by_cases hvi : v = i
            · exact Or.inl hvi
            · exact Or.inr ⟨by omega, b⟩
        · rw [Vec.set_get, List.mem_cons]
          by_cases hvi : v = i
          · simp [hvi]
          · rw [if_neg hvi, h5 v hv]; simp [hvi]
      · rw [if_neg hp]
        refine ⟨_, rfl, vis, st, rfl, h2, h3, fun v => ?_, h5⟩
        rw [h4]
        constructor
        · rintro ⟨a, b⟩; exact ⟨by omega, b⟩
        · rintro ⟨a, b⟩
          exact ⟨by
            rcases Nat.lt_or_ge v i with h | h
            · exact h
            · have : v = i := by omega
              subst this; exact absurd b hp, b⟩)
    net.N 0 s ⟨s.vis, [], by rw [← hst], I.vsz, List.nodup_nil, by simp, fun v hv => by simp [hvis v hv]⟩ (by omega)
  exact ⟨vis, st, e1, h2, h3, fun v => by rw [h4]; simp, h5⟩

/-- most rounds of the main loop in one `Refine` -/
def refRoundsR (N E : Nat) : Nat := (6 * N + 1) * (E + N) * N + N * N + 1

/-- rounds which suffice for every loop in `Refine` -/
def refFuelR (N E : Nat) : Nat := refRoundsR N E + E + 1

/-- What one `Refine` takes on a network with `N` nodes and `E` residual edges. -/
structure RefineStepsR (N E : Nat) (c : Steps) : Prop where
  phases : c.phases = 1
  rounds : c.rounds ≤ refRoundsR N E
  scans : c.scans ≤ (6 * N + 3) * E + refRoundsR N E
  relabels : c.relabels ≤ N * (6 * N + 1)

theorem todoM_zero {M : Nat} (ok : net.OK) : todoM M net (fun _ => 0) net.deg = M * net.E := by
  unfold todoM
  simp only [Nat.sub_zero]
  rw [← Finset.mul_sum, ok.sum_deg]

theorem todoM_zero' {M : Nat} (ok : net.OK) : todoM M net (fun _ => 0) (fun v => net.deg v + 1) = M * (net.E + net.N) := by
  unfold todoM
  simp only [Nat.sub_zero]
  rw [← Finset.mul_sum, Finset.sum_add_distrib, ok.sum_deg]
  simp

variable {G : Int → D} {C B : Int} {πS : Nat → Int} {H P : Int}

/-- `Refine` ends. -/
theorem refine_ends (A : GridArith D G C B) (sm : Small net C B πS H P) (ok : net.OK) {s : CostScaling D} (S : Static net s)
    (he : s.epsilon = G (2 * H)) (hn : ∀ e, e < net.E → 0 ≤ cap s e) (hpot : ∀ v, v < net.N → s.p.get v = G (πS v))
    {fuel : Nat} (hf : refFuelR net.N net.E ≤ fuel) :
    ∃ c s' b, refineC fuel s = .ok (c, s', b) ∧ RefineStepsR net.N net.E c ∧ Static net s' ∧ s'.epsilon = s.epsilon ∧
      (∀ e, e < net.E → 0 ≤ cap s' e) ∧
      ∃ k : Nat → Nat, ∀ v, v < net.N → s'.p.get v = G (πS v + k v * H) ∧ k v ≤ 6 * net.N + 1 := by
  have hE : net.E < fuel := by unfold refFuelR at hf; omega
  unfold refineC
  set r0 : Refining D := { s with
    excess := Vec.replicate s.N 0
    incp := Vec.replicate s.N 0
    current_edge := s.head
    vis := Vec.replicate s.N false
    st := [] } with hr0
  have R0 : RStatic net r0 := ⟨S, S.N, S.N, S.hsz, S.N⟩
  have hpot0 : ∀ v, v < net.N → s.p.get v = G (potI πS H (fun _ => 0) v) := by
    intro v hv
    rw [hpot v hv]
    unfold potI
    simp
  have hrc : ∀ e, e < net.E → (rc net s.p.get e < 0 ↔ rcI net C (potI πS H (fun _ => 0)) e < 0) := by
    intro e he
    obtain ⟨h1, h2⟩ := sm.rc_eq A ok (k := fun _ => 0) (fun _ _ => Nat.zero_le _) hpot0 he
    rw [h1, ← A.zero, A.lt _ _ h2 (by simpa using sm.B_nonneg)]
  have hrev : ∀ e, e < net.E → rc net r0.p.get e < 0 → ¬ rc net r0.p.get (e ^^^ 1) < 0 := by
    intro e he h
    have h1 := (hrc e he).1 h
    rw [show r0.p = s.p from rfl, hrc _ (ok.x_lt e he), rcI_x ok he]
    omega
  have I0 : SatR net r0 (fun _ => False) r0 := ⟨R0, rfl, rfl, rfl, rfl, rfl, rfl, hn, fun _ _ hd => hd.elim⟩
  dsimp only
  rw [S.N]
  obtain ⟨s1, e1, I1⟩ := satAllR A.toPosArith A.sub_self hrev ok I0 hE
  rw [e1, ok_bind]
  dsimp only
  obtain ⟨vis, st, e2, v2, S2⟩ := pushAllR I1.toRStatic (by rw [I1.st]) (by intro v _; rw [I1.vis]; rfl)
  rw [e2, ok_bind]
  have hnn : ∀ e, e < net.E → 0 < cap s1.toCostScaling e → ¬ rc net s.p.get e < 0 := by
    intro e he' hc hr
    rw [I1.done e he' trivial hr] at hc
    exact lt_irrefl _ hc
  have hp1 : s1.p = s.p := I1.p
  have hH := sm.hpos
  have I3 : RCore G net C πS H (fun _ => 0) (fun v => v) { s1 with st := st, vis := vis } := by
    refine ⟨⟨I1.toStatic, I1.xsz, I1.isz, I1.csz, v2⟩, I1.eps.trans he, I1.nonneg, fun v hv => ?_,
      fun v _ => ?_, fun e he' hc => ?_, fun e he' hc hr => ?_, fun _ hv => hv, fun _ _ _ _ h => h, fun _ _ => Nat.zero_le _⟩
    · show s1.p.get v = _
      rw [hp1]; exact hpot0 v hv
    · show s1.incp.get v = _
      rw [I1.incp]; simp [hr0, A.zero]
    · have := hnn e he' hc
      rw [hrc e he'] at this
      omega
    · exact absurd ((hrc e he').2 hr) (hnn e he' hc)
  have C3 : ∀ w, w < net.N → CurOK net { s1 with st := st, vis := vis } w (net.deg w) := by
    intro w hw
    refine ⟨[], net.adj w, rfl, ok.deg_eq hw, ?_, by simp⟩
    show Chain net.nxt (s1.current_edge.get w) _
    rw [I1.cur]
    show Chain net.nxt (s.head.get w) _
    rw [S.head w hw]
    exact ok.chain w hw
  have hadm : adm net { s1 with st := st, vis := vis } = 0 := by
    unfold adm
    rw [Finset.card_eq_zero, Finset.filter_eq_empty_iff]
    intro e he' hc
    have hr : rc net s1.p.get e < 0 := hc.2
    rw [hp1] at hr
    exact absurd hr (hnn e (Finset.mem_range.1 he') hc.1)
  have hmu : muR net (fun _ => 0) (weight net (fun v => v) { s1 with st := st, vis := vis }) + 1 ≤ refRoundsR net.N net.E := by
    unfold muR weight refRoundsR
    rw [hadm, todoM_zero' ok]
    have h1 : height (fun v => v) { s1 with st := st, vis := vis } ≤ net.N * net.N :=
      nodup_sum_le S2.nodup fun v hv => ⟨((S2.mem v).1 hv).1, ((S2.mem v).1 hv).1.le⟩
    omega
  obtain ⟨c, s3, b, k, rank, e3, I4, q1, q2, q3, q4⟩ := refineLoop_ends A sm ok hE fuel _ _ _ _ I3 C3 S2
    (by unfold refFuelR at hf; omega)
  rw [e3, ok_bind]
  have hst : RefineStepsR net.N net.E (⟨1, 0, net.E, 0⟩ + c) := by
    refine ⟨?_, ?_, ?_, ?_⟩
    · show 1 + c.phases = 1
      omega
    · show 0 + c.rounds ≤ _
      omega
    · show net.E + c.scans ≤ _
      have h1 : nuR net (fun _ => 0) net.deg = (6 * net.N + 2) * net.E := by
        unfold nuR
        rw [todoM_zero ok, ok.sum_deg]; ring
      rw [h1] at q3
      have h2 : (6 * net.N + 3) * net.E = (6 * net.N + 2) * net.E + net.E := by ring
      omega
    · show 0 + c.relabels ≤ _
      have h1 := Finset.sum_le_card_nsmul (Finset.range net.N) k (6 * net.N + 1) (fun w hw => I4.kb w (Finset.mem_range.1 hw))
      rw [q4, Finset.card_range, smul_eq_mul] at h1
      simp only [Finset.sum_const_zero] at h1
      omega
  exact ⟨_, _, b, rfl, hst, I4.toStatic, by rw [I4.eps, he], I4.nonneg, k, fun v hv => ⟨I4.pot v hv, I4.kb v hv⟩⟩

/-! ### `MinCost` -/

/-- What at most `p` calls of `Refine` take on a network with `N` nodes and `E` residual edges. -/
structure PhaseStepsR (N E p : Nat) (c : Steps) : Prop where
  phases : c.phases ≤ p
  rounds : c.rounds ≤ p * refRoundsR N E
  scans : c.scans ≤ p * ((6 * N + 3) * E + refRoundsR N E)
  relabels : c.relabels ≤ p * (N * (6 * N + 1))

theorem PhaseStepsR.add {N E p : Nat} {c c' : Steps} (h : RefineStepsR N E c) (h' : PhaseStepsR N E p c') : PhaseStepsR N E (p + 1) (c + c') := by
  have h1 := h.phases
  have h2 := h'.phases
  refine ⟨?_, ?_, ?_, ?_⟩
  · show c.phases + c'.phases ≤ _
    omega
  · show c.rounds + c'.rounds ≤ _
    rw [Nat.succ_mul, Nat.add_comm]
    exact Nat.add_le_add h'.rounds h.rounds
  · show c.scans + c'.scans ≤ _
    rw [Nat.succ_mul, Nat.add_comm]
    exact Nat.add_le_add h'.scans h.scans
  · show c.relabels + c'.relabels ≤ _
    rw [Nat.succ_mul, Nat.add_comm]
    exact Nat.add_le_add h'.relabels h.relabels

theorem PhaseStepsR.zero {N E p : Nat} : PhaseStepsR N E p 0 := ⟨Nat.zero_le _, Nat.zero_le _, Nat.zero_le _, Nat.zero_le _⟩

/-- Between the phases, after `j` of them; `C = 2 ^ J`. -/
structure ScR (G : Int → D) (net : Net) (E0 : Int) (J j : Nat) (s : CostScaling D) : Prop extends Static net s where
  eps : s.epsilon = G (E0 * 2 ^ (J - j))
  nonneg : ∀ e, e < net.E → 0 ≤ cap s e
  pot : ∃ π : Nat → Int, ∀ v, v < net.N → s.p.get v = G (π v) ∧ |π v| ≤ (6 * net.N + 1) * (E0 * (2 ^ J - 2 ^ (J - j)))

variable [One D]

theorem scale_ends {J : Nat} {E0 R : Int} (h0 : 0 < E0) (hR : E0 ≤ R) (A : GridArith D G (2 ^ J) B) (hone : (1 : D) = G (2 ^ J)) (ok : net.OK)
    (hN : 0 < net.N) (hcst : ∀ e, e < net.E → |net.cst e| ≤ R) (hB : (12 * net.N + 3) * R * 2 ^ J ≤ B) {fuel : Nat} (hf : refFuelR net.N net.E ≤ fuel)
    (hJ : E0 * net.N < 2 ^ J) :
    ∀ (m j : Nat) (s : CostScaling D), ScR G net E0 J j s → j ≤ J → J < j + m →
      ∃ c s' b, scaleC fuel m s = .ok (c, s', b) ∧ PhaseStepsR net.N net.E (J - j) c := by
  have two : ∀ j : Nat, (0 : Int) < 2 ^ j := fun j => pow_pos (by norm_num) _
  have hNI : (0 : Int) < net.N := by exact_mod_cast hN
  have hT := two J
  have hRT : 0 < R * 2 ^ J := mul_pos (by omega) hT
  have hNRT : R * 2 ^ J ≤ net.N * (R * 2 ^ J) := by nlinarith
  have hB' : 12 * (net.N * (R * 2 ^ J)) + 3 * (R * 2 ^ J) ≤ B := by
    rw [← show (12 * net.N + 3) * R * 2 ^ J = 12 * (net.N * (R * 2 ^ J)) + 3 * (R * 2 ^ J) by ring]; exact hB
  have hTR : (2 : Int) ^ J ≤ R * 2 ^ J := by nlinarith
  have hET : E0 * 2 ^ J ≤ R * 2 ^ J := mul_le_mul_of_nonneg_right hR hT.le
  have hNE : net.N * (E0 * 2 ^ J) ≤ net.N * (R * 2 ^ J) := mul_le_mul_of_nonneg_left hET hNI.le
  have hNT : net.N * 2 ^ J ≤ net.N * (R * 2 ^ J) := mul_le_mul_of_nonneg_left hTR hNI.le
  intro m
  induction m with
  | zero => intro j s I hj hm; omega
  | succ m ih =>
    intro j s I hj hm
    obtain ⟨π, hπ⟩ := I.pot
    have hTj := two (J - j)
    have hTle : (2 : Int) ^ (J - j) ≤ 2 ^ J := pow_le_pow_right₀ (by norm_num) (by omega)
    have hej : 0 < E0 * 2 ^ (J - j) := mul_pos h0 hTj
    have hej' : E0 * 2 ^ (J - j) ≤ E0 * 2 ^ J := mul_le_mul_of_nonneg_left hTle h0.le
    have hejN : net.N * (E0 * 2 ^ (J - j)) ≤ net.N * (E0 * 2 ^ J) := mul_le_mul_of_nonneg_left hej' hNI.le
    have hejN0 : 0 < net.N * (E0 * 2 ^ (J - j)) := mul_pos hNI hej
    have key : (1 ≤ s.epsilon * ((s.N : Int) : D)) ↔ 2 ^ J ≤ E0 * 2 ^ (J - j) * net.N := by
      have e1 : E0 * 2 ^ (J - j) * net.N = net.N * (E0 * 2 ^ (J - j)) := by ring
      rw [I.eps, I.N, hone, A.mul _ _ (by rw [abs_of_pos hej]; omega) (by rw [abs_of_nonneg (mul_nonneg hNI.le hT.le)]; omega)
        (by rw [e1, abs_of_pos hejN0]; omega), ← not_lt, A.lt _ _ (by rw [e1, abs_of_pos hejN0]; omega) (by rw [abs_of_pos hT]; omega), not_lt]
    unfold scaleC
    by_cases hlt : 2 ^ J ≤ E0 * 2 ^ (J - j) * net.N
    · rw [if_pos (key.2 hlt)]
      have hjJ : j < J := by
        by_contra hc
        have : J - j = 0 := by omega
        rw [this, pow_zero, mul_one] at hlt
        omega
      obtain ⟨i, hi⟩ : ∃ i, J - j = i + 1 := ⟨J - j - 1, by omega⟩
      have hi' : J - (j + 1) = i := by omega
      set H : Int := E0 * 2 ^ i with hH
      have h2H : E0 * 2 ^ (J - j) = 2 * H := by rw [hi, hH, pow_succ]; ring
      have hHp : 0 < H := mul_pos h0 (two i)
      have hbound : (6 * net.N + 1) * (E0 * (2 ^ J - 2 ^ (J - j))) + (6 * net.N + 1) * H = (6 * net.N + 1) * (E0 * (2 ^ J - 2 ^ i)) := by
        rw [hi, hH, pow_succ]; ring
      have hlast : (6 * net.N + 1) * (E0 * (2 ^ J - 2 ^ i)) ≤ 6 * (net.N * (R * 2 ^ J)) + R * 2 ^ J := by
        have h1 : (6 * (net.N : Int) + 1) * (E0 * (2 ^ J - 2 ^ i)) ≤ (6 * net.N + 1) * (E0 * 2 ^ J) := by
          refine mul_le_mul_of_nonneg_left (mul_le_mul_of_nonneg_left ?_ h0.le) (by omega)
          have := two i; omega
        have h2 : (6 * (net.N : Int) + 1) * (E0 * 2 ^ J) = 6 * (net.N * (E0 * 2 ^ J)) + E0 * 2 ^ J := by ring
        omega
      have hNH : 2 * (net.N * H) ≤ net.N * (E0 * 2 ^ J) := by
        have : net.N * (E0 * 2 ^ (J - j)) = 2 * (net.N * H) := by rw [h2H]; ring
        omega
      have sm : Small net (2 ^ J) B π H (6 * (net.N * (R * 2 ^ J)) + R * 2 ^ J) := by
        refine ⟨hHp, fun v hv => ?_, fun e he => ?_, by omega, ?_, by omega, by omega, by omega, hT⟩
        · have := (hπ v hv).2
          omega
        · have h1 : |net.cst e * 2 ^ J| ≤ R * 2 ^ J := by
            rw [abs_mul, abs_of_pos hT]
            exact mul_le_mul_of_nonneg_right (hcst e he) hT.le
          omega
        · have : 6 * (net.N : Int) * H = 6 * (net.N * H) := by ring
          omega
      obtain ⟨c1, s1, b, e1, w1, S1, x1, n1, k, p1⟩ := refine_ends A sm ok I.toStatic (by rw [I.eps, h2H]) I.nonneg (fun v hv => (hπ v hv).1) hf
      rw [e1, ok_bind]
      have hstep : J - j = J - (j + 1) + 1 := by omega
      rw [hstep]
      cases b with
      | false => exact ⟨c1, s1, false, rfl, by simpa [show c1 + 0 = c1 from rfl] using PhaseStepsR.add w1 (PhaseStepsR.zero (p := J - (j + 1)))⟩
      | true =>
        simp only [if_true]
        have hπ' : ∀ v, v < net.N → |π v + k v * H| ≤ (6 * net.N + 1) * (E0 * (2 ^ J - 2 ^ (J - (j + 1)))) := by
          intro v hv
          rw [hi']
          have h1 := (hπ v hv).2
          have h2 : (k v : Int) * H ≤ (6 * net.N + 1) * H := mul_le_mul_of_nonneg_right (by have := (p1 v hv).2; omega) hHp.le
          have h3 : 0 ≤ (k v : Int) * H := mul_nonneg (by omega) hHp.le
          have h4 := abs_add_le (π v) (k v * H)
          rw [abs_of_nonneg h3] at h4
          omega
        obtain ⟨c2, s2, b, e2, w2⟩ := ih (j + 1) { s1 with epsilon := s1.epsilon / ((2 : Int) : D) }
          ⟨⟨S1.N, S1.psz, S1.hsz, S1.head, S1.esz, S1.edge⟩, by
              show s1.epsilon / ((2 : Int) : D) = _
              rw [x1, I.eps, h2H, hi', A.half _ (by rw [abs_of_pos (by omega)]; omega) (by rw [abs_of_pos (by omega)]; omega)],
            n1, fun v => π v + k v * H, fun v hv => ⟨(p1 v hv).1, hπ' v hv⟩⟩ (by omega) (by omega)
        rw [e2, ok_bind]
        exact ⟨_, s2, b, rfl, PhaseStepsR.add w1 w2⟩
    · rw [if_neg fun h => hlt (key.1 h)]
      exact ⟨0, s, true, rfl, PhaseStepsR.zero⟩

theorem init_ends {J : Nat} {R : Int} (hR : 1 ≤ R) (A : GridArith D G (2 ^ J) B) (hone : (1 : D) = G (2 ^ J)) (hB : R * 2 ^ J ≤ B)
    {arcs : List (InputEdge D)} {n : Nat} {imax : Int} (hu : ∀ a ∈ arcs, a.u < n) (hv : ∀ a ∈ arcs, a.v < n)
    (hi : 2 * (arcs.length : Int) - 1 ≤ imax) (hc1 : ∀ a ∈ arcs, |a.cost| ≤ R) (hc2 : R ≤ imax) :
    ∃ s, init imax n arcs = .ok s ∧ Static (netOf arcs n) s ∧ s.epsilon = G (eps0 arcs * 2 ^ J) ∧
      (∀ e, e < 2 * arcs.length → cap s e = capOf arcs e) ∧ (∀ v, v < n → s.p.get v = 0) := by
  have hT : (0 : Int) < 2 ^ J := pow_pos (by norm_num) _
  have small : ∀ a : Int, |a| ≤ R → |a * 2 ^ J| ≤ B := fun a ha => by
    rw [abs_mul, abs_of_pos hT]
    exact (mul_le_mul_of_nonneg_right ha hT.le).trans hB
  have key : ∀ (L : List (InputEdge D)) (i : Nat) (s : CostScaling D) (a : Int), i + L.length = arcs.length →
      (∀ k (h : k < L.length), arcOf arcs (i + k) = L[k]) → InitInv arcs n (2 * i) s → s.epsilon = G (a * 2 ^ J) → |a| ≤ R →
      ∃ s', L.foldlM (initEdge imax) s = .ok s' ∧ InitInv arcs n (2 * arcs.length) s' ∧
        s'.epsilon = G ((L.foldl (fun a e => max a e.cost) a) * 2 ^ J) := by
    intro L
    induction L with
    | nil =>
      intro i s a hl _ I he _
      refine ⟨s, rfl, ?_, he⟩
      rw [← hl]; exact I
    | cons x L ih =>
      intro i s a hl hget I he ha
      have hx : arcOf arcs i = x := hget 0 (by simp)
      have hi' : i < arcs.length := by simp at hl; omega
      have hxm : x ∈ arcs := by rw [← hx]; exact arcOf_mem hi'
      have hxc := abs_le.1 (hc1 x hxm)
      rw [List.foldlM_cons]
      unfold initEdge
      dsimp only
      obtain ⟨s1, e1, I1, p1, t1⟩ := addEdge_spec (imax := imax) (u := x.u) (v := x.v) (c := x.cost) (x := x.capacity)
        (s := { s with epsilon := dmax s.epsilon (x.cost : D), total_cost := s.total_cost + x.capacity * (x.cost : D) })
        ⟨I.N, I.p, I.hsz, I.head, I.esz, I.edge, I.len⟩ (by push_cast; omega) (hu x hxm) (by simp [hx]) (by simp [hx]) (by simp [hx])
        (by simp [hx])
      rw [e1, ok_bind, ck_ok (by omega) (by omega), ok_bind]
      obtain ⟨s2, e2, I2, p2, t2⟩ := addEdge_spec (imax := imax) (u := x.v) (v := x.u) (c := -x.cost) (x := (0 : D)) I1
        (by push_cast; omega) (hv x hxm) (by simp [hx]) (by simp [hx]) (by simp [hx]) (by simp)
      rw [e2, ok_bind]
      have hdm : dmax (G (a * 2 ^ J)) (x.cost : D) = G (max a x.cost * 2 ^ J) := by
        rw [A.cast _ (small _ (hc1 x hxm))]
        unfold dmax
        have hiff : (G (a * 2 ^ J) < G (x.cost * 2 ^ J)) ↔ a < x.cost := by
          rw [A.lt _ _ (small _ ha) (small _ (hc1 x hxm)), mul_lt_mul_iff_of_pos_right hT]
        by_cases h : a < x.cost
        · rw [if_pos (hiff.2 h), max_eq_right h.le]
        · rw [if_neg fun h' => h (hiff.1 h'), max_eq_left (not_lt.1 h)]
      obtain ⟨s3, e3, I3, p3⟩ := ih (i + 1) s2 (max a x.cost) (by simp at hl; omega)
        (fun k hk => by
          have := hget (k + 1) (by simp; omega)
          rw [show i + 1 + k = i + (k + 1) by omega, this]; simp)
        (by rw [show 2 * (i + 1) = 2 * i + 1 + 1 by ring]; exact I2)
        (by rw [p2, p1]; show dmax s.epsilon _ = _; rw [he, hdm]) (by have := abs_le.1 ha; rw [abs_le]; omega)
      exact ⟨s3, e3, I3, p3⟩
  unfold init
  obtain ⟨s, e1, I, p⟩ := key arcs 0
    ({ N := n, epsilon := 1, p := Vec.replicate 0 0, head := Vec.replicate n none, edge := Vec.replicate 0 ⟨none, 0, 0, 0⟩,
       len := -1, total_cost := 0 } : CostScaling D) 1 (by simp) (fun k hk => by rw [Nat.zero_add, arcOf_lt hk])
    ⟨rfl, rfl, rfl, fun u hu => by simp [adjTo], rfl, fun e he => by simp at he, by simp⟩ (by rw [one_mul]; exact hone) (by rw [abs_one]; exact hR)
  rw [e1, ok_bind]
  refine ⟨_, rfl, ⟨I.N, rfl, I.hsz, I.head, I.esz, fun e he => ?_⟩, p, fun e he => ?_, fun v hv => ?_⟩
  · rw [show ({ s with p := s.p.resize n 0 } : CostScaling D).edge.get e = _ from I.edge e he]
    show _ = ({ next := _, v := _, cost := _, capacity := (s.edge.get e).capacity } : CArc D)
    rw [I.edge e he]
    rfl
  · show (s.edge.get e).capacity = _
    rw [I.edge e he]
  · show (s.p.resize n 0).get v = 0
    rw [I.p]
    simp [Vec.resize, Vec.replicate]

/-- rounds which suffice for every loop in `MinCost` -/
def minFuelR (N E J : Nat) : Nat := refFuelR N E + J + 1

theorem foldl_max_le {L : List (InputEdge D)} {a R : Int} (h : a ≤ R) (hL : ∀ x ∈ L, x.cost ≤ R) : L.foldl (fun a e => max a e.cost) a ≤ R := by
  induction L generalizing a with
  | nil => exact h
  | cons x L ih => exact ih (max_le h (hL x (by simp))) fun y hy => hL y (by simp [hy])

theorem minCost_ends {J : Nat} {R : Int} (hR : 1 ≤ R) (A : GridArith D G (2 ^ J) B) (hone : (1 : D) = G (2 ^ J))
    {arcs : List (InputEdge D)} {n : Nat} {imax : Int} (hn : 0 < n) (hB : (12 * n + 3) * R * 2 ^ J ≤ B) (hJ : R * n < 2 ^ J)
    (ha : ∀ a ∈ arcs, a.u < n ∧ a.v < n ∧ a.u ≠ a.v ∧ 0 ≤ a.capacity)
    (hi : 2 * (arcs.length : Int) - 1 ≤ imax) (hc1 : ∀ a ∈ arcs, |a.cost| ≤ R) (hc2 : R ≤ imax)
    {fuel : Nat} (hf : minFuelR n (2 * arcs.length) J ≤ fuel) :
    ∃ c b v, minCostC imax fuel n arcs = .ok (c, b, v) ∧ PhaseStepsR n (2 * arcs.length) J c := by
  have hT : (0 : Int) < 2 ^ J := pow_pos (by norm_num) _
  have hnI : (0 : Int) < n := by exact_mod_cast hn
  obtain ⟨s, e1, S, p, hc, hp⟩ := init_ends hR A hone (by nlinarith [mul_pos (show (0 : Int) < R by omega) hT]) (fun a h => (ha a h).1) (fun a h => (ha a h).2.1) hi hc1 hc2
  have ok : (netOf arcs n).OK := netOf_ok (fun a h => (ha a h).1) (fun a h => (ha a h).2.1) fun a h => (ha a h).2.2.1
  have hE0 : 1 ≤ eps0 arcs := foldl_max_ge arcs 1
  have hE1 : eps0 arcs ≤ R := foldl_max_le hR fun x hx => (abs_le.1 (hc1 x hx)).2
  have hcap : ∀ e, e < (netOf arcs n).E → 0 ≤ cap s e := by
    intro e he
    have he : e < 2 * arcs.length := he
    rw [hc e he]
    obtain ⟨k, rfl | rfl⟩ := two_cases e
    · rw [capOf_even]; exact (ha _ (arcOf_mem (by omega))).2.2.2
    · rw [capOf_odd]
  unfold minFuelR at hf
  obtain ⟨c, s', b, e2, w⟩ := scale_ends (net := netOf arcs n) (E0 := eps0 arcs) (by omega) hE1 A hone ok hn
    (fun e he => by
      have he : e < 2 * arcs.length := he
      show |cstOf arcs e| ≤ R
      obtain ⟨k, rfl | rfl⟩ := two_cases e
      · rw [cstOf_even]; exact hc1 _ (arcOf_mem (by omega))
      · rw [cstOf_odd, abs_neg]; exact hc1 _ (arcOf_mem (by omega)))
    hB (fuel := fuel) (show refFuelR n (2 * arcs.length) ≤ fuel by omega)
    (lt_of_le_of_lt (mul_le_mul_of_nonneg_right hE1 hnI.le) hJ) fuel 0 s
    ⟨S, by rw [p, Nat.sub_zero], hcap, fun _ => 0, fun v hv => ⟨by rw [hp v hv, A.zero], by simp⟩⟩ (Nat.zero_le _) (by omega)
  unfold minCostC
  rw [e1, ok_bind, e2, ok_bind]
  cases b
  · exact ⟨_, _, _, rfl, w⟩
  · exact ⟨_, _, _, rfl, w⟩

end AHO.CS
