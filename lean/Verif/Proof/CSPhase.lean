import Verif.Proof.CSLoop
/-!
# `CostScaling::Refine` as a whole
-/

namespace AHO.CS
open AHO CostScaling
set_option linter.unusedSectionVars false

variable {K : Type} [Field K] [LinearOrder K] [IsStrictOrderedRing K]
variable {net : Net} {s0 s s' : Refining K} {cS : Nat → K} {D D' : Nat → Prop} {u : Nat}

/-- While negative edges are being saturated; those in `D` are done. -/
structure SatInv (net : Net) (s0 : Refining K) (D : Nat → Prop) (s : Refining K) : Prop extends RStatic net s where
  p : s.p = s0.p
  incp : s.incp = s0.incp
  cur : s.current_edge = s0.current_edge
  eps : s.epsilon = s0.epsilon
  tc : s.total_cost = s0.total_cost
  vis : s.vis = s0.vis
  st : s.st = s0.st
  nonneg : ∀ e, e < net.E → 0 ≤ cap s.toCostScaling e
  anti : ∀ e, e < net.E → cap s.toCostScaling (e ^^^ 1) - cap s0.toCostScaling (e ^^^ 1) =
    -(cap s.toCostScaling e - cap s0.toCostScaling e)
  ex : ∀ v, v < net.N → s.excess.get v = gain net (fun e => cap s.toCostScaling e - cap s0.toCostScaling e) v
  done : ∀ e, e < net.E → D e → rc net s0.p.get e < 0 → cap s.toCostScaling e = 0

theorem SatInv.step (ok : net.OK) (I : SatInv net s0 D s) {e : Nat} (he : e < net.E) :
    ∃ s', saturate (net.src e) e s = .ok s' ∧ SatInv net s0 (fun x => D x ∨ x = e) s' := by
  rcases saturate_spec (fun x => sub_self x) ok I.toRStatic he with ⟨h1, h2⟩ | ⟨h1, s', h2, m, h3, h4⟩
  · refine ⟨s, h2, { I with done := fun x hx hd hr => ?_ }⟩
    rcases hd with hd | rfl
    · exact I.done x hx hd hr
    · rw [I.p] at h1; exact absurd hr h1
  · have hp := m.p.trans I.p
    refine ⟨s', h2, ⟨m.st, hp, m.incp.trans I.incp, m.cur.trans I.cur, m.eps.trans I.eps, m.tc.trans I.tc, h3.trans I.vis,
      h4.trans I.st, fun x hx => ?_, fun x hx => ?_, fun v hv => ?_, fun x hx hd hr => ?_⟩⟩
    · rw [m.cap x hx]; exact moved_nonneg I.nonneg (I.nonneg e he) le_rfl x hx
    · rw [m.cap x hx, m.cap _ (ok.x_lt x hx)]; exact moved_anti I.anti x hx
    · rw [m.ex]
      have : gain net (fun x => cap s'.toCostScaling x - cap s0.toCostScaling x) v =
          gain net (fun x => moved (cap s.toCostScaling) e (cap s.toCostScaling e) x - cap s0.toCostScaling x) v := by
        unfold gain
        refine Finset.sum_congr rfl fun x hx => ?_
        show cap s'.toCostScaling x - _ = _
        rw [m.cap x (Finset.mem_range.1 (Finset.mem_filter.1 hx).1)]
      rw [this, moved_gain ok he]
      unfold shifted
      rw [I.ex _ (ok.src_lt e he), I.ex _ (ok.dst_lt he), I.ex v hv]
    · rw [m.cap x hx]
      by_cases hxe : x = e
      · rw [hxe, moved_self, sub_self]
      · have hd : D x := hd.resolve_right hxe
        unfold moved
        rw [if_neg hxe]
        by_cases hx1 : x = e ^^^ 1
        · rw [hx1, rc_x ok he] at hr
          rw [I.p] at h1
          linarith
        · rw [if_neg hx1]; exact I.done x hx hd hr

theorem satLoop (ok : net.OK) {b : Nat × Refining K × Option Nat → Res (Nat × Refining K × Option Nat)}
    (hb : ∀ c s i, b (c, s, some i) = (do
      let s ← saturate u i s
      let e ← s.edge.rd i
      .ok (c + 1, s, e.next))) : ∀ (L : List Nat) (fuel c : Nat) (s : Refining K) (hd : Option Nat) (D : Nat → Prop), L.length < fuel →
    SatInv net s0 D s → Chain net.nxt hd L → (∀ e ∈ L, e < net.E ∧ net.src e = u) →
    ∃ s', whileLoop (fun (x : Nat × Refining K × Option Nat) => .ok x.2.2.isSome) b fuel (c, s, hd) = .ok (c + L.length, s', none) ∧
      SatInv net s0 (fun x => D x ∨ x ∈ L) s' := by
  intro L
  induction L with
  | nil =>
    intro fuel c s hd D hf I hc _
    obtain ⟨fuel, rfl⟩ : ∃ g, fuel = g + 1 := ⟨fuel - 1, by simp at hf; omega⟩
    have : hd = none := hc
    subst this
    exact ⟨s, rfl, by simpa using I⟩
  | cons e L ih =>
    intro fuel c s hd D hf I hc hL
    obtain ⟨fuel, rfl⟩ : ∃ g, fuel = g + 1 := ⟨fuel - 1, by simp at hf; omega⟩
    obtain ⟨rfl, hc2⟩ := hc
    obtain ⟨he, rfl⟩ := hL e (by simp)
    obtain ⟨s1, e1, I1⟩ := I.step ok he
    unfold whileLoop
    simp only [ok_bind, Option.isSome_some, if_true]
    rw [hb, e1, ok_bind, Vec.rd_ok (by rw [I1.esz]; exact he), ok_bind, I1.edge e he, ok_bind]
    obtain ⟨s2, e2, I2⟩ := ih fuel (c + 1) s1 (net.nxt e) _ (by simp at hf; omega) I1 hc2 fun x hx => hL x (by simp [hx])
    refine ⟨s2, by rw [e2, List.length_cons, Nat.add_assoc, Nat.add_comm 1], { I2 with done := fun x hx hd hr => I2.done x hx ?_ hr }⟩
    rcases hd with hd | hd
    · exact Or.inl (Or.inl hd)
    · rcases List.mem_cons.1 hd with hd | hd
      · exact Or.inl (Or.inr hd)
      · exact Or.inr hd

theorem satAll (ok : net.OK) (I : SatInv net s0 (fun _ => False) s) {fuel : Nat} (hf : net.E < fuel) :
    ∃ s', forRange (saturateNodeC fuel) 0 net.N (0, s) = .ok (net.E, s') ∧ SatInv net s0 (fun _ => True) s' := by
  obtain ⟨⟨c, s'⟩, e1, hc, I1⟩ := forRange_ok (body := saturateNodeC fuel) (hi := net.N)
    (Inv := fun x i => x.1 = ∑ u ∈ Finset.range i, net.deg u ∧ SatInv net s0 (fun e => net.src e < i) x.2)
    (by
      rintro ⟨c, s⟩ i ⟨hc, I⟩ hi
      dsimp only at hc I
      unfold saturateNodeC
      dsimp only
      rw [Vec.rd_ok (by rw [I.hsz]; exact hi), ok_bind, I.head i hi]
      obtain ⟨s', e1, I1⟩ := satLoop (s0 := s0) (u := i) ok (b := fun x => match x.2.2 with
        | none => .ok x
        | some j => do
          let s ← saturate i j x.2.1
          let e ← s.edge.rd j
          .ok (x.1 + 1, s, e.next)) (fun _ _ _ => rfl) (net.adj i) fuel c s (net.head i) _
        (by have := ok.len hi; omega) I (ok.chain i hi) (fun e he => (ok.adj i hi e).1 he)
      refine ⟨(c + (net.adj i).length, s'), by erw [e1]; rfl, ?_, { I1 with done := fun x hx hd hr => I1.done x hx ?_ hr }⟩
      · show c + (net.adj i).length = _
        rw [Finset.sum_range_succ, ok.deg_eq hi, hc]
      rcases Nat.lt_or_ge (net.src x) i with h1 | h1
      · exact Or.inl h1
      · exact Or.inr ((ok.adj i hi x).2 ⟨hx, by omega⟩))
    net.N 0 (0, s) ⟨rfl, { I with done := fun x hx hd hr => I.done x hx (by omega) hr }⟩ (by omega)
  have hc : c = net.E := hc.trans ok.sum_deg
  subst hc
  exact ⟨s', e1, { I1 with done := fun x hx _ hr => I1.done x hx (ok.src_lt x hx) hr }⟩

theorem pushAll (I : RStatic net s) (hst : s.st = []) (hvis : ∀ v, v < net.N → s.vis.get v = false) :
    ∃ vis st, forRange pushActive 0 net.N s = .ok { s with st := st, vis := vis } ∧ vis.size = net.N ∧
      Stk net { s with st := st, vis := vis } (fun _ => False) := by
  obtain ⟨s', e1, vis, st, rfl, h2, h3, h4, h5⟩ := forRange_ok (body := pushActive) (hi := net.N)
    (Inv := fun s1 i => ∃ (vis : Vec Bool) (st : List Nat), s1 = { s with st := st, vis := vis } ∧ vis.size = net.N ∧ st.Nodup ∧
      (∀ v, v ∈ st ↔ v < i ∧ 0 < s.excess.get v) ∧ ∀ v, v < net.N → (vis.get v = true ↔ v ∈ st))
    (by
      rintro s1 i ⟨vis, st, rfl, h2, h3, h4, h5⟩ hi
      unfold pushActive
      rw [Vec.rd_ok (by rw [show _ = net.N from I.xsz]; exact hi), ok_bind]
      by_cases hp : 0 < s.excess.get i
      · rw [if_pos hp, Vec.wr_ok _ (by rw [h2]; exact hi), ok_bind]
        refine ⟨_, rfl, vis.set i true, i :: st, rfl, h2, ?_, fun v => ?_, fun v hv => ?_⟩
        · refine List.nodup_cons.2 ⟨fun hc => ?_, h3⟩
          have := ((h4 i).1 hc).1
          omega
        · rw [List.mem_cons, h4]
          constructor
          · rintro (rfl | ⟨a, b⟩)
            · exact ⟨by omega, hp⟩
            · exact ⟨by omega, b⟩
          · rintro ⟨a, b⟩
            by_cases hvi : v = i
            · exact Or.inl hvi
            · exact Or.inr ⟨by omega, b⟩
        · rw [Vec.set_get, List.mem_cons]
          by_cases hvi : v = i
          · simp [hvi]
          · rw [if_neg hvi, h5 v hv]; simp [hvi]
      · rw [if_neg hp]
        refine ⟨_, rfl, vis, st, rfl, h2, h3, fun v => ?_, h5⟩
        rw [h4]
        constructor
        · rintro ⟨a, b⟩; exact ⟨by omega, b⟩
        · rintro ⟨a, b⟩
          exact ⟨by
            rcases Nat.lt_or_ge v i with h | h
            · exact h
            · have : v = i := by omega
              subst this; exact absurd b hp, b⟩)
    net.N 0 s ⟨s.vis, [], by rw [← hst], I.vsz, List.nodup_nil, by simp, fun v hv => by simp [hvis v hv]⟩ (by omega)
  exact ⟨vis, st, e1, h2, h3, fun v => by rw [h4]; simp, h5⟩

/-- most rounds of the main loop in one `Refine` -/
def refRounds (N E : Nat) : Nat := (3 * (N - 1) + 1) * (E + N) * N + N * N

/-- rounds which suffice for every loop in `Refine` -/
def refFuel (N E : Nat) : Nat := refRounds N E + E + 1

theorem E_lt_refFuel (N E : Nat) : E < refFuel N E := by
  unfold refFuel; omega

theorem nodup_sum_le {N R : Nat} {rank : Nat → Nat} : ∀ {l : List Nat}, l.Nodup → (∀ v ∈ l, v < N ∧ rank v ≤ R) → (l.map rank).sum ≤ N * R := by
  intro l hn hl
  have h1 : (l.map rank).sum ≤ l.length * R := by
    clear hn
    induction l with
    | nil => simp
    | cons a l ih =>
      have h1 := (hl a (by simp)).2
      have h2 := ih fun v hv => hl v (by simp [hv])
      simp only [List.map_cons, List.sum_cons, List.length_cons, Nat.succ_mul]
      omega
  have h2 : l.length ≤ N := by
    have := List.toFinset_card_of_nodup hn
    rw [← this]
    have h3 : l.toFinset ⊆ Finset.range N := by
      intro v hv; rw [List.mem_toFinset] at hv; exact Finset.mem_range.2 (hl v hv).1
    simpa using Finset.card_le_card h3
  exact h1.trans (Nat.mul_le_mul_right _ h2)

theorem todo_zero (ok : net.OK) : todo net (fun _ => 0) net.deg = relMax net.N * net.E := by
  unfold todo
  simp only [Nat.sub_zero]
  rw [← Finset.mul_sum, ok.sum_deg]

theorem todo_zero' (ok : net.OK) : todo net (fun _ => 0) (fun v => net.deg v + 1) = relMax net.N * (net.E + net.N) := by
  unfold todo
  simp only [Nat.sub_zero]
  rw [← Finset.mul_sum, Finset.sum_add_distrib, ok.sum_deg]
  simp

/-- What one `Refine` takes on a network with `N` nodes and `E` residual edges. -/
structure RefineSteps (N E : Nat) (c : Steps) : Prop where
  phases : c.phases = 1
  rounds : c.rounds ≤ refRounds N E
  scans : c.scans ≤ (3 * (N - 1) + 3) * E + refRounds N E
  relabels : c.relabels ≤ maxRel N

/-- `Refine` turns an `epsilon`-optimal circulation into an `epsilon/2`-optimal one. -/
theorem refine_spec (ok : net.OK) {s : CostScaling K} (S : Static net s) {h : K} (hp : 0 < h) (he : s.epsilon = 2 * h)
    (hn : ∀ e, e < net.E → 0 ≤ cap s e) (ho : ∀ e, e < net.E → 0 < cap s e → -s.epsilon ≤ rc net s.p.get e)
    {fuel : Nat} (hf : refFuel net.N net.E ≤ fuel) :
    ∃ c s', refineC fuel s = .ok (c, s', true) ∧ RefineSteps net.N net.E c ∧ Static net s' ∧ s'.epsilon = s.epsilon ∧ s'.total_cost = s.total_cost ∧
      (∀ e, e < net.E → 0 ≤ cap s' e) ∧
      (∀ e, e < net.E → cap s' (e ^^^ 1) - cap s (e ^^^ 1) = -(cap s' e - cap s e)) ∧
      (∀ v, v < net.N → gain net (fun e => cap s' e - cap s e) v = 0) ∧
      (∀ v, v < net.N → ∃ k : Nat, s'.p.get v = s.p.get v + k * h) ∧
      (∀ e, e < net.E → 0 < cap s' e → -h ≤ rc net s'.p.get e) := by
  have hE := E_lt_refFuel net.N net.E
  unfold refineC
  set r0 : Refining K := { s with
    excess := Vec.replicate s.N 0
    incp := Vec.replicate s.N 0
    current_edge := s.head
    vis := Vec.replicate s.N false
    st := [] } with hr0
  have R0 : RStatic net r0 := ⟨S, S.N, S.N, S.hsz, S.N⟩
  have I0 : SatInv net r0 (fun _ => False) r0 := by
    refine ⟨R0, rfl, rfl, rfl, rfl, rfl, rfl, rfl, hn, fun e _ => by ring, fun v _ => ?_, fun _ _ hd => hd.elim⟩
    unfold gain
    rw [Finset.sum_eq_zero (fun e _ => sub_self _)]
    rfl
  dsimp only
  rw [S.N]
  obtain ⟨s1, e1, I1⟩ := satAll ok I0 (show net.E < fuel by omega)
  rw [e1, ok_bind]
  dsimp only
  obtain ⟨vis, st, e2, v2, S2⟩ := pushAll I1.toRStatic (by rw [I1.st]) (by intro v _; rw [I1.vis]; rfl)
  rw [e2, ok_bind]
  have hcap : ∀ e, e < net.E → rc net s.p.get e < 0 → cap s1.toCostScaling e = 0 := fun e he' hr => I1.done e he' trivial hr
  have hnn : ∀ e, e < net.E → 0 < cap s1.toCostScaling e → 0 ≤ rc net s.p.get e := by
    intro e he' hc
    by_contra hr
    rw [hcap e he' (not_le.1 hr)] at hc
    exact lt_irrefl _ hc
  have hp1 : s1.p = s.p := I1.p
  have I3 : Core net (cap s) s.p.get h (fun _ => 0) (fun v => v) { s1 with st := st, vis := vis } := by
    refine ⟨⟨I1.toStatic, I1.xsz, I1.isz, I1.csz, v2⟩, hp, I1.eps.trans he, I1.nonneg, I1.anti, I1.ex, fun v _ => ?_,
      fun v _ => ?_, fun e he' hc => ?_, fun _ _ _ => rfl, fun e he' hc hr => ?_, fun _ hv => hv, fun _ _ _ _ h => h,
      fun _ _ => Nat.zero_le _⟩
    · show s1.p.get v = _
      rw [hp1]; simp
    · show s1.incp.get v = _
      rw [I1.incp]; simp [hr0]
    · show -h ≤ rc net s1.p.get e
      rw [hp1]
      linarith [hnn e he' hc]
    · have hr : rc net s1.p.get e < 0 := hr
      rw [hp1] at hr
      exact absurd (hnn e he' hc) (not_le.2 hr)
  have C3 : ∀ w, w < net.N → CurOK net { s1 with st := st, vis := vis } w (net.deg w) := by
    intro w hw
    refine ⟨[], net.adj w, rfl, ok.deg_eq hw, ?_, by simp⟩
    show Chain net.nxt (s1.current_edge.get w) _
    rw [I1.cur]
    show Chain net.nxt (s.head.get w) _
    rw [S.head w hw]
    exact ok.chain w hw
  have hadm : adm net { s1 with st := st, vis := vis } = 0 := by
    unfold adm
    rw [Finset.card_eq_zero, Finset.filter_eq_empty_iff]
    intro e he' hc
    have hr : rc net s1.p.get e < 0 := hc.2
    rw [hp1] at hr
    exact absurd (hnn e (Finset.mem_range.1 he') hc.1) (not_le.2 hr)
  have hmu : mu net (fun _ => 0) (weight net (fun v => v) { s1 with st := st, vis := vis }) ≤ refRounds net.N net.E := by
    unfold mu weight refRounds
    rw [hadm, todo_zero' ok]
    have h1 : height (fun v => v) { s1 with st := st, vis := vis } ≤ net.N * net.N :=
      nodup_sum_le S2.nodup fun v hv => ⟨((S2.mem v).1 hv).1, ((S2.mem v).1 hv).1.le⟩
    unfold relMax
    omega
  obtain ⟨c, s3, k, rank, e3, I4, x3, t3, q1, q2, q3, q4⟩ := refineLoop_spec ok hn (by rw [← he]; exact ho) (show net.E < fuel by omega) fuel _ _ _ _ I3 C3 S2
    (by unfold refFuel at hf; omega)
  rw [e3, ok_bind]
  have hgain : ∀ v, v < net.N → gain net (fun e => cap s3.toCostScaling e - cap s e) v = 0 := by
    have hle : ∀ v ∈ Finset.range net.N, gain net (fun e => cap s3.toCostScaling e - cap s e) v ≤ 0 := by
      intro v hv
      have hv := Finset.mem_range.1 hv
      rw [← I4.ex v hv]
      exact not_lt.1 (x3 v hv)
    intro v hv
    exact (Finset.sum_eq_zero_iff_of_nonpos hle).1 (sum_gain_all ok I4.anti) v (Finset.mem_range.2 hv)
  have hst : RefineSteps net.N net.E (⟨1, 0, net.E, 0⟩ + c) := by
    refine ⟨?_, ?_, ?_, ?_⟩
    · show 1 + c.phases = 1
      omega
    · show 0 + c.rounds ≤ _
      omega
    · show net.E + c.scans ≤ _
      have h1 : nu net (fun _ => 0) net.deg = (relMax net.N + 1) * net.E := by
        unfold nu
        rw [todo_zero ok, ok.sum_deg, Nat.succ_mul]
      rw [h1] at q3
      have h2 : (3 * (net.N - 1) + 3) * net.E = (relMax net.N + 1) * net.E + net.E := by
        unfold relMax; ring
      omega
    · show 0 + c.relabels ≤ _
      have := I4.sum_le
      rw [q4] at this
      omega
  exact ⟨_, _, rfl, hst, I4.toStatic, by rw [I4.eps, he], t3.trans I1.tc, I4.nonneg, I4.anti, hgain, fun v hv => ⟨k v, I4.pot v hv⟩, I4.opt⟩

end AHO.CS
