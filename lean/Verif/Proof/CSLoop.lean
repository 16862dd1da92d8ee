import Verif.Proof.CSRefine
import Verif.Model.CostScalingCost
/-!
# `CostScaling::Refine`: invariant and termination
-/

namespace AHO.CS
open AHO CostScaling
set_option linter.unusedSectionVars false

section
variable {K : Type} [LinearOrder K] [Zero K] [Add K] [Sub K] [IntCast K]

/-- Edges before the current edge of `u` are not admissible; there are `r` others. -/
def CurOK (net : Net) (s : Refining K) (u r : Nat) : Prop :=
  ∃ L0 L, net.adj u = L0 ++ L ∧ L.length = r ∧ Chain net.nxt (s.current_edge.get u) L ∧
    ∀ e ∈ L0, 0 < cap s.toCostScaling e → 0 ≤ rc net s.p.get e

/-- The stack contains the nodes with excess, except the banned ones. -/
structure Stk (net : Net) (s : Refining K) (B : Nat → Prop) : Prop where
  nodup : s.st.Nodup
  mem : ∀ v, v ∈ s.st ↔ v < net.N ∧ 0 < s.excess.get v ∧ ¬ B v
  vis : ∀ v, v < net.N → (s.vis.get v = true ↔ v ∈ s.st)

/-- number of admissible edges -/
def adm (net : Net) (s : Refining K) : Nat :=
  ((Finset.range net.E).filter fun e => 0 < cap s.toCostScaling e ∧ rc net s.p.get e < 0).card

/-- sum of the ranks on the stack -/
def height (rank : Nat → Nat) (s : Refining K) : Nat := (s.st.map rank).sum

/-- admissible edges and ranks on the stack -/
def weight (net : Net) (rank : Nat → Nat) (s : Refining K) : Nat := adm net s * net.N + height rank s

end

variable {K : Type} [Field K] [LinearOrder K] [IsStrictOrderedRing K]
variable {net : Net}

/-- The invariant of `Refine` without the stack and the current edges. `cS`, `pS` are capacities and potentials at the start, `h` is
`epsilon / 2`, `k v` counts the relabellings of `v`, and `rank` orders the nodes along admissible edges. -/
structure Core (net : Net) (cS pS : Nat → K) (h : K) (k rank : Nat → Nat) (s : Refining K) : Prop extends RStatic net s where
  hpos : 0 < h
  eps : s.epsilon = 2 * h
  nonneg : ∀ e, e < net.E → 0 ≤ cap s.toCostScaling e
  anti : ∀ e, e < net.E → cap s.toCostScaling (e ^^^ 1) - cS (e ^^^ 1) = -(cap s.toCostScaling e - cS e)
  ex : ∀ v, v < net.N → s.excess.get v = gain net (fun e => cap s.toCostScaling e - cS e) v
  pot : ∀ v, v < net.N → s.p.get v = pS v + k v * h
  inc : ∀ v, v < net.N → s.incp.get v = k v * h
  opt : ∀ e, e < net.E → 0 < cap s.toCostScaling e → -h ≤ rc net s.p.get e
  neg : ∀ v, v < net.N → s.excess.get v < 0 → k v = 0
  ord : ∀ e, e < net.E → 0 < cap s.toCostScaling e → rc net s.p.get e < 0 → rank (net.dst e) < rank (net.src e)
  rank_lt : ∀ v, v < net.N → rank v < net.N
  rank_inj : ∀ v w, v < net.N → w < net.N → rank v = rank w → v = w
  kb : ∀ v, v < net.N → k v ≤ 3 * (net.N - 1) + 1

variable {cS pS : Nat → K} {h : K} {k rank : Nat → Nat} {s s' : Refining K} {u x : Nat} {f : K}

section push
variable (ok : net.OK) (I : Core net cS pS h k rank s) (m : Moved net s s' x f) (hx : x < net.E)
  (hw : rc net s.p.get x < 0) (hf0 : 0 ≤ f) (hfc : f ≤ cap s.toCostScaling x)
include ok I m hx hw hf0 hfc

theorem push_pos {e : Nat} (he : e < net.E) (hp : 0 < cap s'.toCostScaling e) :
    0 < cap s.toCostScaling e ∨ 0 ≤ rc net s.p.get e := by
  rw [m.cap e he] at hp
  rcases moved_pos hf0 hp with h1 | h1
  · exact Or.inl h1
  · right; rw [h1, rc_x ok hx]; linarith

theorem push_core (hfx : f ≤ s.excess.get (net.src x)) : Core net cS pS h k rank s' := by
  have hpp := fun {e} => push_pos ok I m hx hw hf0 hfc (e := e)
  have hne := ok.ne x hx
  refine ⟨m.st, I.hpos, by rw [m.eps]; exact I.eps, fun e he => ?_, fun e he => ?_, fun v hv => ?_, ?_, ?_, fun e he hp => ?_,
    fun v hv hn => ?_, fun e he hp hr => ?_, I.rank_lt, I.rank_inj, I.kb⟩
  · rw [m.cap e he]; exact moved_nonneg I.nonneg hf0 hfc e he
  · rw [m.cap e he, m.cap _ (ok.x_lt e he)]; exact moved_anti I.anti e he
  · rw [m.ex]
    have : gain net (fun e => cap s'.toCostScaling e - cS e) v = gain net (fun e => moved (cap s.toCostScaling) x f e - cS e) v := by
      unfold gain
      refine Finset.sum_congr rfl fun e he => ?_
      show cap s'.toCostScaling e - cS e = _
      rw [m.cap e (Finset.mem_range.1 (Finset.mem_filter.1 he).1)]
    rw [this, moved_gain ok hx]
    unfold shifted
    rw [I.ex _ (ok.src_lt x hx), I.ex _ (ok.dst_lt hx), I.ex v hv]
  · rw [m.p]; exact I.pot
  · rw [m.incp]; exact I.inc
  · rw [m.p]
    rcases hpp he hp with h1 | h1
    · exact I.opt e he h1
    · linarith [I.hpos]
  · rw [m.ex] at hn
    apply I.neg v hv
    unfold shifted at hn
    split at hn
    · linarith
    · split at hn
      · rename_i h2; subst h2; linarith
      · exact hn
  · rw [m.p] at hr
    rcases hpp he hp with h1 | h1
    · exact I.ord e he h1 hr
    · exact absurd hr (not_lt.2 h1)

theorem push_cur {w r : Nat} (hwN : w < net.N) (hc : CurOK net s w r) : CurOK net s' w r := by
  obtain ⟨L0, L, h1, hl, h2, h3⟩ := hc
  refine ⟨L0, L, h1, hl, by rw [m.cur]; exact h2, fun e he hp => ?_⟩
  have heE : e < net.E := ((ok.adj w hwN e).1 (by rw [h1]; exact List.mem_append_left _ he)).1
  rw [m.p]
  rcases push_pos ok I m hx hw hf0 hfc heE hp with h4 | h4
  · exact h3 e he h4
  · exact h4

theorem push_adm : adm net s' ≤ adm net s ∧ (f = cap s.toCostScaling x → 0 < f → adm net s' < adm net s) := by
  unfold adm
  have hsub : ((Finset.range net.E).filter fun e => 0 < cap s'.toCostScaling e ∧ rc net s'.p.get e < 0) ⊆
      ((Finset.range net.E).filter fun e => 0 < cap s.toCostScaling e ∧ rc net s.p.get e < 0) := by
    intro e he
    obtain ⟨h1, h2, h3⟩ := Finset.mem_filter.1 he
    rw [m.p] at h3
    refine Finset.mem_filter.2 ⟨h1, ?_, h3⟩
    rcases push_pos ok I m hx hw hf0 hfc (Finset.mem_range.1 h1) h2 with h4 | h4
    · exact h4
    · exact absurd h3 (not_lt.2 h4)
  refine ⟨Finset.card_le_card hsub, fun h1 h2 => Finset.card_lt_card ⟨hsub, fun hc => ?_⟩⟩
  have := hc (Finset.mem_filter.2 ⟨Finset.mem_range.2 hx, by rw [← h1]; exact h2, hw⟩)
  have := (Finset.mem_filter.1 this).2.1
  rw [m.cap x hx, moved_self, h1] at this
  simp at this

theorem push_stk (S : Stk net s (· = net.src x))
    (hst : (0 < s.excess.get (net.dst x) + f ∧ s.vis.get (net.dst x) = false ∧ s'.st = net.dst x :: s.st ∧
          s'.vis = s.vis.set (net.dst x) true) ∨
        (¬ (0 < s.excess.get (net.dst x) + f ∧ s.vis.get (net.dst x) = false) ∧ s'.st = s.st ∧ s'.vis = s.vis)) :
    Stk net s' (· = net.src x) ∧ (s'.st = s.st ∨ s'.st = net.dst x :: s.st ∧ 0 < cap s.toCostScaling x) := by
  have hd := ok.dst_lt hx
  have hne := ok.ne x hx
  have hv := S.vis _ hd
  have hmem := S.mem (net.dst x)
  have hexv : ∀ v, v ≠ net.src x → v ≠ net.dst x → s'.excess.get v = s.excess.get v := by
    intro v h1 h2; rw [m.ex]; unfold shifted; rw [if_neg h1, if_neg h2]
  have hexd : s'.excess.get (net.dst x) = s.excess.get (net.dst x) + f := by
    rw [m.ex]; unfold shifted; rw [if_neg hne.symm, if_pos rfl]
  rcases hst with ⟨h1, h2, h3, h4⟩ | ⟨h1, h2, h3⟩
  · have hnot : net.dst x ∉ s.st := fun hc => by rw [hv.2 hc] at h2; cases h2
    refine ⟨⟨?_, fun v => ?_, fun v hvN => ?_⟩, Or.inr ⟨h3, ?_⟩⟩
    · rw [h3]; exact List.nodup_cons.2 ⟨hnot, S.nodup⟩
    · rw [h3, List.mem_cons, S.mem]
      by_cases hvd : v = net.dst x
      · subst hvd
        rw [hexd]
        exact ⟨fun _ => ⟨hd, h1, hne.symm⟩, fun _ => Or.inl rfl⟩
      · by_cases hvs : v = net.src x
        · simp [hvs, hne]
        · rw [hexv v hvs hvd]
          simp [hvd]
    · rw [h4, h3, List.mem_cons, Vec.set_get]
      by_cases hvd : v = net.dst x
      · simp [hvd]
      · rw [if_neg hvd, S.vis v hvN]; simp [hvd]
    · by_contra hc
      have h5 : f = 0 := by linarith
      rw [h5, add_zero] at h1
      exact hnot (hmem.2 ⟨hd, h1, hne.symm⟩)
  · -- not pushed
    refine ⟨⟨by rw [h2]; exact S.nodup, fun v => ?_, fun v hvN => by rw [h2, h3]; exact S.vis v hvN⟩, Or.inl h2⟩
    rw [h2, S.mem]
    by_cases hvd : v = net.dst x
    · subst hvd
      rw [hexd]
      constructor
      · rintro ⟨a, b, c⟩; exact ⟨a, by linarith, c⟩
      · rintro ⟨a, b, c⟩
        refine hmem.1 (hv.1 ?_)
        by_contra hf
        exact h1 ⟨b, by simpa using hf⟩
    · by_cases hvs : v = net.src x
      · simp [hvs]
      · rw [hexv v hvs hvd]

end push

theorem cur_step (I : Core net cS pS h k rank s) {c : Option Nat} :
    Core net cS pS h k rank { s with current_edge := s.current_edge.set u c } :=
  ⟨⟨I.toStatic, I.xsz, I.isz, I.csz, I.vsz⟩, I.hpos, I.eps, I.nonneg, I.anti, I.ex, I.pot, I.inc, I.opt, I.neg, I.ord, I.rank_lt, I.rank_inj, I.kb⟩

theorem discharge_spec (ok : net.OK) (hu : u < net.N) {r : Nat → Nat} : ∀ (L L0 : List Nat) (s : Refining K) (fuel : Nat), L.length < fuel →
    Core net cS pS h k rank s → net.adj u = L0 ++ L → Chain net.nxt (s.current_edge.get u) L →
    (∀ e ∈ L0, 0 < cap s.toCostScaling e → 0 ≤ rc net s.p.get e) → (∀ w, w < net.N → w ≠ u → CurOK net s w (r w)) →
    Stk net s (· = u) → 0 < s.excess.get u →
    ∃ c s' b, dischargeC u fuel s = .ok (c, s', b) ∧ Core net cS pS h k rank s' ∧ (∀ w, w < net.N → w ≠ u → CurOK net s' w (r w)) ∧
      Stk net s' (· = u) ∧ s'.total_cost = s.total_cost ∧
      ((b = true ∧ s'.excess.get u = 0 ∧ (∃ ru, CurOK net s' u ru ∧ c + ru ≤ L.length + 1) ∧ weight net rank s' < weight net rank s + rank u) ∨
        (b = false ∧ c ≤ L.length ∧ weight net rank s' ≤ weight net rank s ∧ 0 < s'.excess.get u ∧ ∀ e ∈ net.adj u, 0 < cap s'.toCostScaling e → 0 ≤ rc net s'.p.get e)) := by
  intro L
  induction L with
  | nil =>
    intro L0 s fuel hfu I hadj hch hL0 hcur S hex
    obtain ⟨fuel, rfl⟩ : ∃ g, fuel = g + 1 := ⟨fuel - 1, by simp at hfu; omega⟩
    unfold dischargeC
    have : s.current_edge.get u = none := hch
    rw [Vec.rd_ok (by rw [I.csz]; exact hu), ok_bind, this]
    refine ⟨0, s, false, rfl, I, hcur, S, rfl, Or.inr ⟨rfl, le_rfl, le_rfl, hex, ?_⟩⟩
    rw [hadj, List.append_nil]; exact hL0
  | cons x L ih =>
    intro L0 s fuel hfu I hadj hch hL0 hcur S hex
    obtain ⟨fuel, rfl⟩ : ∃ g, fuel = g + 1 := ⟨fuel - 1, by simp at hfu; omega⟩
    obtain ⟨hc1, hc2⟩ := hch
    obtain ⟨hx, hsx⟩ := (ok.adj u hu x).1 (by rw [hadj]; simp)
    subst hsx
    unfold dischargeC
    rw [Vec.rd_ok (by rw [I.csz]; exact hu), ok_bind, hc1]
    dsimp only
    rw [Vec.rd_ok (by rw [I.esz]; exact hx), ok_bind, costPi_ok I.toStatic ok hx, ok_bind]
    -- a step to the next edge
    have next : ∀ s1 : Refining K, Core net cS pS h k rank s1 → s1.current_edge = s.current_edge → s1.total_cost = s.total_cost →
        (∀ e ∈ L0, 0 < cap s1.toCostScaling e → 0 ≤ rc net s1.p.get e) →
        (0 < cap s1.toCostScaling x → 0 ≤ rc net s1.p.get x) → (∀ w, w < net.N → w ≠ net.src x → CurOK net s1 w (r w)) →
        Stk net s1 (· = net.src x) → 0 < s1.excess.get (net.src x) → weight net rank s1 ≤ weight net rank s →
        ∃ c s' b, (do
          let x_1 ← s1.excess.rd (net.src x)
          if (x_1 == 0) = true then (.ok (1, s1, true) : Res (Nat × Refining K × Bool))
          else do
            let e ← s1.edge.rd x
            let cur ← s1.current_edge.wr (net.src x) e.next
            let (c, r) ← dischargeC (net.src x) fuel { s1 with current_edge := cur }
            .ok (c + 1, r)) = .ok (c, s', b) ∧ Core net cS pS h k rank s' ∧
          (∀ w, w < net.N → w ≠ net.src x → CurOK net s' w (r w)) ∧
          Stk net s' (· = net.src x) ∧ s'.total_cost = s.total_cost ∧
          ((b = true ∧ s'.excess.get (net.src x) = 0 ∧ (∃ ru, CurOK net s' (net.src x) ru ∧ c + ru ≤ (x :: L).length + 1) ∧
              weight net rank s' < weight net rank s + rank (net.src x)) ∨
            (b = false ∧ c ≤ (x :: L).length ∧ weight net rank s' ≤ weight net rank s ∧ 0 < s'.excess.get (net.src x) ∧
              ∀ e ∈ net.adj (net.src x), 0 < cap s'.toCostScaling e → 0 ≤ rc net s'.p.get e)) := by
      intro s1 I1 e1 e1' e2 e3 e4 e5 e6 e7
      rw [Vec.rd_ok (by rw [I1.xsz]; exact hu), ok_bind, if_neg (by simpa using e6.ne'), Vec.rd_ok (by rw [I1.esz]; exact hx), ok_bind,
        Vec.wr_ok _ (by rw [I1.csz]; exact hu), ok_bind, I1.edge x hx]
      obtain ⟨c, s', b, r1, r2, r3, r4, r5', r6⟩ := ih (L0 ++ [x]) { s1 with current_edge := s1.current_edge.set (net.src x) (net.nxt x) } fuel
        (by simp at hfu; omega) (cur_step I1) (by rw [hadj]; simp) (by rw [Vec.set_get_self]; exact hc2)
        (by
          intro e he
          rcases List.mem_append.1 he with h1 | h1
          · exact e2 e h1
          · rw [List.mem_singleton.1 h1]; exact e3)
        (by
          intro w hw hwu
          obtain ⟨A, B, a1, al, a2, a3⟩ := e4 w hw hwu
          exact ⟨A, B, a1, al, by rw [Vec.set_get_ne _ _ hwu]; exact a2, a3⟩)
        ⟨e5.nodup, e5.mem, e5.vis⟩ e6
      rw [r1, ok_bind]
      refine ⟨c + 1, s', b, rfl, r2, r3, r4, r5'.trans e1', ?_⟩
      rcases r6 with ⟨c1, c2, ⟨ru, c3, c3'⟩, c4⟩ | ⟨c1, c2, c3, c4, c5⟩
      · refine Or.inl ⟨c1, c2, ⟨ru, c3, by rw [List.length_cons]; omega⟩, ?_⟩
        have c4 : weight net rank s' < weight net rank s1 + rank (net.src x) := c4
        omega
      · have c3 : weight net rank s' ≤ weight net rank s1 := c3
        exact Or.inr ⟨c1, by rw [List.length_cons]; omega, by omega, c4, c5⟩
    by_cases hw : rc net s.p.get x < 0
    · rw [if_pos hw, Vec.rd_ok (by rw [I.xsz]; exact hu), ok_bind]
      set f := dmin (s.edge.get x).capacity (s.excess.get (net.src x)) with hf
      have hcap : (s.edge.get x).capacity = cap s.toCostScaling x := rfl
      have hfc : f ≤ cap s.toCostScaling x := by
        rw [hf, hcap]; unfold dmin; split <;> linarith
      have hfx : f ≤ s.excess.get (net.src x) := by
        rw [hf]; unfold dmin; split
        · exact le_rfl
        · linarith
      have hf0 : 0 ≤ f := by
        rw [hf, hcap]; unfold dmin; split
        · exact hex.le
        · exact I.nonneg x hx
      have hfor : f = cap s.toCostScaling x ∨ f = s.excess.get (net.src x) := by
        rw [hf, hcap]; unfold dmin; split
        · exact Or.inr rfl
        · exact Or.inl rfl
      obtain ⟨s1, p1, m, p2⟩ := push_spec ok I.toRStatic hx f
      rw [p1, ok_bind]
      have I1 := push_core ok I m hx hw hf0 hfc hfx
      obtain ⟨S1, S2⟩ := push_stk ok I m hx hw hf0 hfc S p2
      obtain ⟨A1, A2⟩ := push_adm ok I m hx hw hf0 hfc
      have hex1 : s1.excess.get (net.src x) = s.excess.get (net.src x) - f := by
        rw [m.ex]; unfold shifted; rw [if_pos rfl]
      have hcur1 : ∀ w, w < net.N → w ≠ net.src x → CurOK net s1 w (r w) := fun w hw' hwu =>
        push_cur ok I m hx hw hf0 hfc hw' (hcur w hw' hwu)
      have hL1 : ∀ e ∈ L0, 0 < cap s1.toCostScaling e → 0 ≤ rc net s1.p.get e := by
        intro e he hp
        have heE : e < net.E := ((ok.adj _ hu e).1 (by rw [hadj]; exact List.mem_append_left _ he)).1
        rw [m.p]
        rcases push_pos ok I m hx hw hf0 hfc heE hp with h4 | h4
        · exact hL0 e he h4
        · exact h4
      have hht : height rank s1 ≤ height rank s + rank (net.src x) - 1 ∧ (height rank s1 = height rank s ∨ 0 < cap s.toCostScaling x) ∨
          height rank s1 = height rank s := by
        rcases S2 with h1 | ⟨h1, h2⟩
        · right; unfold height; rw [h1]
        · left
          have := I.ord x hx h2 hw
          unfold height
          rw [h1, List.map_cons, List.sum_cons]
          exact ⟨by omega, Or.inr h2⟩
      by_cases hz : s1.excess.get (net.src x) = 0
      · rw [Vec.rd_ok (by rw [I1.xsz]; exact hu), ok_bind, if_pos (by simpa using hz)]
        refine ⟨1, s1, true, rfl, I1, hcur1, S1, m.tc, Or.inl ⟨rfl, hz, ⟨_, ⟨L0, x :: L, hadj, rfl, ?_, hL1⟩, by omega⟩, ?_⟩⟩
        · rw [m.cur]; exact ⟨hc1, hc2⟩
        · have hfe : f = s.excess.get (net.src x) := by linarith
          have hfp : 0 < f := by rw [hfe]; exact hex
          have hr := I.ord x hx (lt_of_lt_of_le hfp hfc) hw
          have := Nat.mul_le_mul_right net.N A1
          unfold weight
          rcases hht with ⟨h1, -⟩ | h1 <;> omega
      · have hfe : f = cap s.toCostScaling x := by
          rcases hfor with h1 | h1
          · exact h1
          · exact absurd (by linarith) hz
        refine next s1 I1 m.cur m.tc hL1 (fun hp => ?_) hcur1 S1 ?_ ?_
        · rw [m.cap x hx, moved_self, hfe] at hp
          simp at hp
        · rw [hex1] at hz ⊢
          exact lt_of_le_of_ne (by linarith) (fun h => hz h.symm)
        · unfold weight
          rcases S2 with h1 | ⟨h1, h2⟩
          · have := Nat.mul_le_mul_right net.N A1
            unfold height
            rw [h1]; omega
          · have h3 := Nat.mul_le_mul_right net.N (Nat.succ_le_of_lt (A2 hfe (by rw [hfe]; exact h2)))
            rw [Nat.succ_mul] at h3
            have h4 := I.rank_lt _ (ok.dst_lt hx)
            unfold height
            rw [h1, List.map_cons, List.sum_cons]
            omega
    · rw [if_neg hw, ok_bind]
      exact next s I rfl rfl hL0 (fun _ => not_lt.1 hw) hcur S hex le_rfl

/-- A node with excess was relabelled at most `3 (N - 1)` times. -/
theorem Core.bound (ok : net.OK) (I : Core net cS pS h k rank s) (h0 : ∀ e, e < net.E → 0 ≤ cS e)
    (hS : ∀ e, e < net.E → 0 < cS e → -(2 * h) ≤ rc net pS e) {v : Nat} (hv : v < net.N) (hex : 0 < s.excess.get v) :
    k v ≤ 3 * (net.N - 1) := by
  have := gap ok (d := fun e => cap s.toCostScaling e - cS e) (Δ := fun v => (k v : K) * h) (g := 3 * h) (by linarith [I.hpos])
    I.anti
    (by
      intro e he hd
      have h1 := h0 e he
      have h2 := I.opt e he (by linarith)
      have h3 := I.anti e he
      have h4 := I.nonneg _ (ok.x_lt e he)
      have h5 := hS _ (ok.x_lt e he) (by linarith)
      rw [rc_x ok he] at h5
      unfold rc at h2 h5
      rw [I.pot _ (ok.src_lt e he), I.pot _ (ok.dst_lt he)] at h2
      linarith)
    (by
      intro w hw hn
      rw [← I.ex w hw] at hn
      rw [I.neg w hw hn]; simp)
    hv (by rw [← I.ex v hv]; exact hex)
  have h6 : (k v : K) * h ≤ ((3 * (net.N - 1) : Nat) : K) * h := by
    push_cast
    linarith
  exact_mod_cast le_of_mul_le_mul_right h6 I.hpos

theorem sum_update {N : Nat} {g : Nat → Nat} (hu : u < N) :
    ∑ w ∈ Finset.range N, Function.update g u (g u + 1) w = ∑ w ∈ Finset.range N, g w + 1 := by
  have hm : u ∈ Finset.range N := Finset.mem_range.2 hu
  rw [← Finset.add_sum_erase _ _ hm, ← Finset.add_sum_erase _ g hm, Function.update_self]
  have : ∑ w ∈ (Finset.range N).erase u, Function.update g u (g u + 1) w = ∑ w ∈ (Finset.range N).erase u, g w := by
    refine Finset.sum_congr rfl fun w hw => ?_
    rw [Function.update_of_ne (Finset.ne_of_mem_erase hw)]
  rw [this]; omega

/-- greatest possible number of relabellings -/
def maxRel (N : Nat) : Nat := N * (3 * (N - 1) + 1)

theorem Core.sum_le (I : Core net cS pS h k rank s) : ∑ w ∈ Finset.range net.N, k w ≤ maxRel net.N := by
  have := Finset.sum_le_card_nsmul (Finset.range net.N) k (3 * (net.N - 1) + 1) (fun w hw => I.kb w (Finset.mem_range.1 hw))
  simpa [maxRel] using this

/-- greatest possible number of relabellings of a node -/
def relMax (N : Nat) : Nat := 3 * (N - 1) + 1

/-- relabellings to come, weighted -/
def todo (net : Net) (k g : Nat → Nat) : Nat := ∑ w ∈ Finset.range net.N, (relMax net.N - k w) * g w

theorem todo_update {k g : Nat → Nat} (hu : u < net.N) (hk : k u < relMax net.N) :
    todo net (Function.update k u (k u + 1)) g + g u = todo net k g := by
  unfold todo
  have hm : u ∈ Finset.range net.N := Finset.mem_range.2 hu
  rw [← Finset.add_sum_erase _ _ hm, ← Finset.add_sum_erase _ (fun w => (relMax net.N - k w) * g w) hm, Function.update_self]
  have h1 : ∑ w ∈ (Finset.range net.N).erase u, (relMax net.N - Function.update k u (k u + 1) w) * g w =
      ∑ w ∈ (Finset.range net.N).erase u, (relMax net.N - k w) * g w := by
    refine Finset.sum_congr rfl fun w hw => ?_
    rw [Function.update_of_ne (Finset.ne_of_mem_erase hw)]
  have h2 : (relMax net.N - k u) * g u = (relMax net.N - (k u + 1)) * g u + g u := by
    rw [← Nat.succ_mul]; congr 1; omega
  rw [h1, h2]
  omega

/-- The measure which decreases with every round. -/
def mu (net : Net) (k : Nat → Nat) (w : Nat) : Nat := todo net k (fun v => net.deg v + 1) * net.N + w

/-- The edges which the loops over the edges of a node can still visit; `r v` are those left of `v`. -/
def nu (net : Net) (k r : Nat → Nat) : Nat := todo net k net.deg + ∑ w ∈ Finset.range net.N, r w

theorem sum_change {N : Nat} {r : Nat → Nat} {x : Nat} (hu : u < N) :
    ∑ w ∈ Finset.range N, Function.update r u x w + r u = ∑ w ∈ Finset.range N, r w + x := by
  have hm : u ∈ Finset.range N := Finset.mem_range.2 hu
  rw [← Finset.add_sum_erase _ _ hm, ← Finset.add_sum_erase _ r hm, Function.update_self]
  have : ∑ w ∈ (Finset.range N).erase u, Function.update r u x w = ∑ w ∈ (Finset.range N).erase u, r w := by
    refine Finset.sum_congr rfl fun w hw => ?_
    rw [Function.update_of_ne (Finset.ne_of_mem_erase hw)]
  rw [this]; omega

/-- The rank after `u` was relabelled: `u` goes to the top. -/
def top (N u : Nat) (rank : Nat → Nat) (v : Nat) : Nat :=
  if v = u then N - 1 else if rank u < rank v then rank v - 1 else rank v

theorem relabel_core (ok : net.OK) (I : Core net cS pS h k rank s) (hu : u < net.N) (hku : k u ≤ 3 * (net.N - 1))
    (hex : 0 < s.excess.get u) (hadj : ∀ e ∈ net.adj u, 0 < cap s.toCostScaling e → 0 ≤ rc net s.p.get e) :
    ∃ s', relabel u s = .ok s' ∧
      Core net cS pS h (Function.update k u (k u + 1)) (top net.N u rank) s' ∧
      s'.current_edge = s.current_edge ∧ s'.st = s.st ∧ s'.vis = s.vis ∧ s'.excess = s.excess ∧ s'.total_cost = s.total_cost ∧
      (∀ e, cap s'.toCostScaling e = cap s.toCostScaling e) ∧
      (∀ e, e < net.E → net.src e ≠ u → rc net s.p.get e ≤ rc net s'.p.get e) := by
  have hh : s.epsilon / ((2 : Int) : K) = h := by rw [I.eps]; push_cast; exact mul_div_cancel_left₀ _ (by norm_num)
  have hp := I.hpos
  have hge : ∀ w, s.p.get w ≤ (s.p.set u (s.p.get u + h)).get w ∧ (s.p.set u (s.p.get u + h)).get w ≤ s.p.get w + h := by
    intro w
    rw [Vec.set_get]
    split
    · rename_i h1; subst h1; exact ⟨by linarith, le_rfl⟩
    · exact ⟨le_rfl, by linarith⟩
  have hmono : ∀ e, e < net.E → net.src e ≠ u → rc net s.p.get e ≤ rc net (s.p.set u (s.p.get u + h)).get e := by
    intro e he hs
    unfold rc
    rw [Vec.set_get_ne _ _ hs]
    linarith [(hge (net.dst e)).1]
  have hout : ∀ e, e < net.E → net.src e = u → rc net (s.p.set u (s.p.get u + h)).get e = rc net s.p.get e - h := by
    intro e he hs
    have hd : net.dst e ≠ u := by rw [← hs]; exact (ok.ne e he).symm
    unfold rc
    rw [hs, Vec.set_get_self, Vec.set_get_ne _ _ hd]; ring
  have hin : ∀ e, e < net.E → net.dst e = u → rc net (s.p.set u (s.p.get u + h)).get e = rc net s.p.get e + h := by
    intro e he hd
    have hs : net.src e ≠ u := by rw [← hd]; exact ok.ne e he
    unfold rc
    rw [hd, Vec.set_get_self, Vec.set_get_ne _ _ hs]; ring
  have hmem : ∀ e, e < net.E → net.src e = u → 0 < cap s.toCostScaling e → 0 ≤ rc net s.p.get e := fun e he hs =>
    hadj e ((ok.adj u hu e).2 ⟨he, hs⟩)
  unfold relabel
  rw [Vec.rd_ok (by rw [I.psz]; exact hu), ok_bind, Vec.wr_ok _ (by rw [I.psz]; exact hu), ok_bind,
    Vec.rd_ok (by rw [I.isz]; exact hu), ok_bind, Vec.wr_ok _ (by rw [I.isz]; exact hu), ok_bind, hh]
  refine ⟨_, rfl, ⟨⟨⟨I.N, I.psz, I.hsz, I.head, I.esz, I.edge⟩, I.xsz, I.isz, I.csz, I.vsz⟩, I.hpos, I.eps, I.nonneg, I.anti, I.ex,
    fun v hv => ?_, fun v hv => ?_, fun e he hc => ?_, fun v hv hn => ?_, fun e he hc hr => ?_, fun v hv => ?_, fun v w hv hw hvw => ?_,
    fun v hv => ?_⟩, rfl, rfl, rfl, rfl, rfl, fun _ => rfl, hmono⟩
  · show (s.p.set u (s.p.get u + h)).get v = _
    rw [Vec.set_get]
    by_cases h1 : v = u
    · subst h1; rw [if_pos rfl, Function.update_self, I.pot v hv]; push_cast; ring
    · rw [if_neg h1, Function.update_of_ne h1, I.pot v hv]
  · show (s.incp.set u (s.incp.get u + h)).get v = _
    rw [Vec.set_get]
    by_cases h1 : v = u
    · subst h1; rw [if_pos rfl, Function.update_self, I.inc v hv]; push_cast; ring
    · rw [if_neg h1, Function.update_of_ne h1, I.inc v hv]
  · show -h ≤ rc net (s.p.set u (s.p.get u + h)).get e
    by_cases h1 : net.src e = u
    · rw [hout e he h1]
      have := hmem e he h1 hc
      linarith
    · exact (I.opt e he hc).trans (hmono e he h1)
  · have hn : s.excess.get v < 0 := hn
    by_cases h1 : v = u
    · subst h1; linarith
    · rw [Function.update_of_ne h1]; exact I.neg v hv hn
  · have hr : rc net (s.p.set u (s.p.get u + h)).get e < 0 := hr
    have hc : 0 < cap s.toCostScaling e := hc
    have hd : net.dst e ≠ u := by
      intro hd
      rw [hin e he hd] at hr
      have := I.opt e he hc
      linarith
    have hdl := I.rank_lt _ (ok.dst_lt he)
    have hul := I.rank_lt u hu
    unfold top
    rw [if_neg hd]
    by_cases h1 : net.src e = u
    · rw [if_pos h1]
      have hdu : rank (net.dst e) ≠ rank u := fun hc => hd (I.rank_inj _ _ (ok.dst_lt he) hu hc)
      split <;> omega
    · rw [if_neg h1]
      have h2 := I.ord e he hc (lt_of_le_of_lt (hmono e he h1) hr)
      have hsu : rank (net.src e) ≠ rank u := fun hc => h1 (I.rank_inj _ _ (ok.src_lt e he) hu hc)
      have hdu : rank (net.dst e) ≠ rank u := fun hc => hd (I.rank_inj _ _ (ok.dst_lt he) hu hc)
      split <;> split <;> omega
  · have h1 := I.rank_lt v hv
    have h2 := I.rank_lt u hu
    unfold top
    split
    · omega
    · split <;> omega
  · have h1 := I.rank_lt v hv
    have h2 := I.rank_lt w hw
    have h3 := I.rank_lt u hu
    have h4 : v ≠ u → rank v ≠ rank u := fun hc h => hc (I.rank_inj _ _ hv hu h)
    have h5 : w ≠ u → rank w ≠ rank u := fun hc h => hc (I.rank_inj _ _ hw hu h)
    unfold top at hvw
    by_cases a1 : v = u <;> by_cases a2 : w = u
    · rw [a1, a2]
    · rw [if_pos a1, if_neg a2] at hvw
      have := h5 a2
      split at hvw <;> omega
    · rw [if_neg a1, if_pos a2] at hvw
      have := h4 a1
      split at hvw <;> omega
    · rw [if_neg a1, if_neg a2] at hvw
      have := h4 a1
      have := h5 a2
      refine I.rank_inj v w hv hw ?_
      split at hvw <;> split at hvw <;> omega
  · by_cases h1 : v = u
    · subst h1; rw [Function.update_self]; omega
    · rw [Function.update_of_ne h1]; exact I.kb v hv

theorem relabel_weight (I : Core net cS pS h k rank s) (hu : u < net.N) (hnd : s.st.Nodup) (hst : ∀ v ∈ s.st, v < net.N) (hnot : u ∉ s.st)
    {s' : Refining K} (hs : s'.st = u :: s.st) (hcap : ∀ e, cap s'.toCostScaling e = cap s.toCostScaling e)
    (hrc : ∀ e, e < net.E → net.src e ≠ u → rc net s.p.get e ≤ rc net s'.p.get e) :
    weight net (top net.N u rank) s' < weight net rank s + (net.deg u + 1) * net.N := by
  have hul := I.rank_lt u hu
  have ha : adm net s' ≤ adm net s + net.deg u := by
    unfold adm Net.deg
    refine le_trans (Finset.card_le_card fun e he => ?_) (Finset.card_union_le _ _)
    obtain ⟨h1, h2, h3⟩ := Finset.mem_filter.1 he
    rw [Finset.mem_union, Finset.mem_filter, Finset.mem_filter]
    by_cases hsu : net.src e = u
    · exact Or.inr ⟨h1, hsu⟩
    · rw [hcap] at h2
      exact Or.inl ⟨h1, h2, lt_of_le_of_lt (hrc e (Finset.mem_range.1 h1) hsu) h3⟩
  have hh : height (top net.N u rank) s' ≤ height rank s + (net.N - 1) := by
    unfold height
    rw [hs, List.map_cons, List.sum_cons]
    have h1 : top net.N u rank u = net.N - 1 := by unfold top; rw [if_pos rfl]
    have h2 : (s.st.map (top net.N u rank)).sum ≤ (s.st.map rank).sum := by
      refine List.sum_le_sum fun v hv => ?_
      unfold top
      rw [if_neg (fun hc : v = u => hnot (hc ▸ hv))]
      split <;> omega
    omega
  unfold weight
  have h1 := Nat.mul_le_mul_right net.N ha
  rw [Nat.add_mul] at h1
  rw [Nat.add_mul, one_mul]
  omega

theorem modify_spec (ok : net.OK) (I : Core net cS pS h k rank s) (h0 : ∀ e, e < net.E → 0 ≤ cS e)
    (hS : ∀ e, e < net.E → 0 < cS e → -(2 * h) ≤ rc net pS e) (hu : u < net.N) {r : Nat → Nat} (hcur : ∀ w, w < net.N → CurOK net s w (r w))
    (S : Stk net s (· = u)) (hex : 0 < s.excess.get u) {fuel : Nat} (hf : net.E < fuel) :
    ∃ c s' k' rank' r', modifyC fuel u s = .ok (c, s') ∧ Core net cS pS h k' rank' s' ∧ (∀ w, w < net.N → CurOK net s' w (r' w)) ∧
      Stk net s' (fun _ => False) ∧ s'.total_cost = s.total_cost ∧
      mu net k' (weight net rank' s') < mu net k (weight net rank s + rank u) ∧
      c.phases = 0 ∧ c.rounds = 0 ∧ c.scans + nu net k' r' ≤ nu net k r + 1 ∧
      ∑ w ∈ Finset.range net.N, k' w = ∑ w ∈ Finset.range net.N, k w + c.relabels := by
  obtain ⟨L0, L, a1, al, a2, a3⟩ := hcur u hu
  have hlen : L.length < fuel := by
    have h1 := ok.len hu
    have h2 : L.length ≤ (net.adj u).length := by rw [a1]; simp
    omega
  obtain ⟨c, s1, b, e1, I1, c1, S1, t1, q⟩ := discharge_spec ok hu L L0 s fuel hlen I a1 a2 a3 (fun w hw _ => hcur w hw) S hex
  unfold modifyC
  rw [Vec.rd_ok (by rw [I.xsz]; exact hu), ok_bind, if_pos hex, e1, ok_bind]
  dsimp only
  rcases q with ⟨rfl, r1, ⟨ru, r2, r2'⟩, r3⟩ | ⟨rfl, r0, r3, r1, r2⟩
  · refine ⟨_, s1, k, rank, Function.update r u ru, rfl, I1, fun w hw => ?_, ⟨S1.nodup, fun v => ?_, S1.vis⟩, t1, ?_, rfl, rfl, ?_, rfl⟩
    · by_cases hwu : w = u
      · rw [hwu, Function.update_self]; exact r2
      · rw [Function.update_of_ne hwu]; exact c1 w hw hwu
    · rw [S1.mem]
      constructor
      · rintro ⟨a, b, -⟩; exact ⟨a, b, not_false⟩
      · rintro ⟨a, b, -⟩; exact ⟨a, b, fun hc => by rw [hc, r1] at b; exact lt_irrefl _ b⟩
    · unfold mu
      omega
    · show c + _ ≤ _
      have := sum_change (N := net.N) (r := r) (x := ru) hu
      unfold nu
      omega
  · simp only [Bool.false_eq_true, if_false]
    rw [Vec.rd_ok (by rw [I1.xsz]; exact hu), ok_bind, if_pos r1]
    have hku := I1.bound ok h0 hS hu r1
    obtain ⟨s2, e2, I2, f1, f2, f3, f4, f5, f6, f7⟩ := relabel_core ok I1 hu hku r1 r2
    rw [e2, ok_bind, Vec.rd_ok (by rw [I2.hsz]; exact hu), ok_bind, Vec.wr_ok _ (by rw [I2.csz]; exact hu), ok_bind,
      Vec.wr_ok _ (by rw [I2.vsz]; exact hu), ok_bind]
    have hnot : u ∉ s1.st := fun hc => ((S1.mem u).1 hc).2.2 rfl
    have S3 : Stk net { s2 with
        current_edge := s2.current_edge.set u (s2.head.get u), st := u :: s2.st, vis := s2.vis.set u true } (fun _ => False) := by
      refine ⟨?_, fun v => ?_, fun v hv => ?_⟩
      · show (u :: s2.st).Nodup
        rw [f2]; exact List.nodup_cons.2 ⟨hnot, S1.nodup⟩
      · show v ∈ u :: s2.st ↔ v < net.N ∧ 0 < s2.excess.get v ∧ ¬ False
        rw [f2, f4, List.mem_cons, S1.mem]
        by_cases h1 : v = u
        · subst h1; exact ⟨fun _ => ⟨hu, r1, not_false⟩, fun _ => Or.inl rfl⟩
        · simp [h1]
      · show (s2.vis.set u true).get v = true ↔ v ∈ u :: s2.st
        rw [f2, f3, Vec.set_get, List.mem_cons]
        by_cases h1 : v = u
        · simp [h1]
        · rw [if_neg h1, S1.vis v hv]; simp [h1]
    have I3 : Core net cS pS h (Function.update k u (k u + 1)) (top net.N u rank)
        { s2 with current_edge := s2.current_edge.set u (s2.head.get u), st := u :: s2.st, vis := s2.vis.set u true } :=
      ⟨⟨I2.toStatic, I2.xsz, I2.isz, I2.csz, I2.vsz⟩, I2.hpos, I2.eps, I2.nonneg, I2.anti, I2.ex, I2.pot, I2.inc, I2.opt, I2.neg, I2.ord,
        I2.rank_lt, I2.rank_inj, I2.kb⟩
    have hkm : k u < relMax net.N := by unfold relMax; omega
    refine ⟨_, _, _, _, Function.update r u (net.deg u), rfl, I3, fun w hw => ?_, S3, f5.trans t1, ?_, rfl, rfl, ?_, sum_update hu⟩
    · by_cases hwu : w = u
      · subst hwu
        rw [Function.update_self]
        refine ⟨[], net.adj w, rfl, ok.deg_eq hu, ?_, by simp⟩
        show Chain net.nxt ((s2.current_edge.set w (s2.head.get w)).get w) _
        rw [Vec.set_get_self, I2.head w hw]
        exact ok.chain w hw
      · rw [Function.update_of_ne hwu]
        obtain ⟨A, B, b1, bl, b2, b3⟩ := c1 w hw hwu
        refine ⟨A, B, b1, bl, ?_, fun e he hc => ?_⟩
        · show Chain net.nxt ((s2.current_edge.set u (s2.head.get u)).get w) _
          rw [Vec.set_get_ne _ _ hwu, f1]; exact b2
        · have hc : 0 < cap s2.toCostScaling e := hc
          rw [f6] at hc
          obtain ⟨heE, hes⟩ := (ok.adj w hw e).1 (by rw [b1]; exact List.mem_append_left _ he)
          exact (b3 e he hc).trans (f7 e heE (by rw [hes]; exact hwu))
    · have hw := relabel_weight I1 hu S1.nodup (fun v hv => ((S1.mem v).1 hv).1) hnot
        (s' := { s2 with current_edge := s2.current_edge.set u (s2.head.get u), st := u :: s2.st, vis := s2.vis.set u true })
        (by show u :: s2.st = _; rw [f2]) f6 f7
      have ht := todo_update (g := fun v => net.deg v + 1) hu hkm
      unfold mu
      rw [← ht, Nat.add_mul]
      omega
    · show c + _ ≤ _
      have h1 := sum_change (N := net.N) (r := r) (x := net.deg u) hu
      have h2 := todo_update (g := net.deg) hu hkm
      unfold nu
      omega

theorem refineLoop_spec (ok : net.OK) (h0 : ∀ e, e < net.E → 0 ≤ cS e)
    (hS : ∀ e, e < net.E → 0 < cS e → -(2 * h) ≤ rc net pS e) {fuel : Nat} (hf : net.E < fuel) :
    ∀ (n : Nat) (s : Refining K) (k rank r : Nat → Nat), Core net cS pS h k rank s → (∀ w, w < net.N → CurOK net s w (r w)) →
      Stk net s (fun _ => False) → mu net k (weight net rank s) < n →
      ∃ c s' k' rank', refineLoopC fuel n s = .ok (c, s', true) ∧ Core net cS pS h k' rank' s' ∧
        (∀ v, v < net.N → ¬ 0 < s'.excess.get v) ∧ s'.total_cost = s.total_cost ∧
        c.phases = 0 ∧ c.rounds ≤ mu net k (weight net rank s) ∧ c.scans ≤ nu net k r + c.rounds ∧
        ∑ w ∈ Finset.range net.N, k' w = ∑ w ∈ Finset.range net.N, k w + c.relabels := by
  intro n
  induction n with
  | zero => intro s k rank r _ _ _ h; omega
  | succ n ih =>
    intro s k rank r I hcur S hmu
    unfold refineLoopC
    cases hst : s.st with
    | nil =>
      refine ⟨0, s, k, rank, rfl, I, fun v hv hp => ?_, rfl, rfl, Nat.zero_le _, Nat.zero_le _, rfl⟩
      have := (S.mem v).2 ⟨hv, hp, not_false⟩
      rw [hst] at this
      cases this
    | cons u st =>
      simp only []
      obtain ⟨hu, hex, -⟩ := (S.mem u).1 (by rw [hst]; simp)
      have hnd := S.nodup
      rw [hst, List.nodup_cons] at hnd
      have I1 : Core net cS pS h k rank { s with st := st, vis := s.vis.set u false } :=
        ⟨⟨I.toStatic, I.xsz, I.isz, I.csz, I.vsz⟩, I.hpos, I.eps, I.nonneg, I.anti, I.ex, I.pot, I.inc, I.opt, I.neg, I.ord,
          I.rank_lt, I.rank_inj, I.kb⟩
      have S1 : Stk net { s with st := st, vis := s.vis.set u false } (· = u) := by
        refine ⟨hnd.2, fun v => ?_, fun v hv => ?_⟩
        · show v ∈ st ↔ v < net.N ∧ 0 < s.excess.get v ∧ ¬ v = u
          have := S.mem v
          rw [hst, List.mem_cons] at this
          constructor
          · intro hm
            obtain ⟨a, b, -⟩ := this.1 (Or.inr hm)
            exact ⟨a, b, fun hc => hnd.1 (by rw [← hc]; exact hm)⟩
          · rintro ⟨a, b, c⟩
            exact (this.2 ⟨a, b, not_false⟩).resolve_left c
        · show (s.vis.set u false).get v = true ↔ v ∈ st
          rw [Vec.set_get]
          by_cases h1 : v = u
          · subst h1; simp [hnd.1]
          · rw [if_neg h1, S.vis v hv, hst, List.mem_cons]; simp [h1]
      rw [Vec.wr_ok _ (by rw [I.vsz]; exact hu), ok_bind]
      rw [Vec.rd_ok (by rw [I.isz]; exact hu), ok_bind]
      have hle : ¬ s.epsilon * ((3 : Int) : K) * ((s.N : Int) : K) < s.incp.get u := by
        rw [I.inc u hu, I.eps, I.N, not_lt]
        have h1 := I.kb u hu
        have h2 : (k u : K) ≤ ((6 * net.N : Nat) : K) := by exact_mod_cast (by omega)
        have h3 := mul_le_mul_of_nonneg_right h2 I.hpos.le
        push_cast at h3 ⊢
        linarith
      rw [if_neg hle]
      obtain ⟨c, s', k', rank', r', e1, I2, c2, S2, t2, m2, p1, p2, p3, p4⟩ := modify_spec ok I1 h0 hS hu (r := r) hcur S1 hex hf
      rw [e1, ok_bind]
      dsimp only
      have hwt : weight net rank s = weight net rank { s with st := st, vis := s.vis.set u false } + rank u := by
        have : height rank s = height rank { s with st := st, vis := s.vis.set u false } + rank u := by
          unfold height
          rw [hst, List.map_cons, List.sum_cons]
          exact Nat.add_comm _ _
        unfold weight
        rw [this]
        exact (Nat.add_assoc _ _ _).symm
      rw [← hwt] at m2
      obtain ⟨c', s'', k'', rank'', e3, I3, c3, t3, q1, q2, q3, q4⟩ := ih s' k' rank' r' I2 c2 S2
        (lt_of_lt_of_le m2 (Nat.lt_succ_iff.1 hmu))
      rw [e3, ok_bind]
      refine ⟨_, s'', k'', rank'', rfl, I3, c3, t3.trans t2, ?_, ?_, ?_, ?_⟩
      · show 0 + c.phases + c'.phases = 0
        omega
      · show 1 + c.rounds + c'.rounds ≤ _
        omega
      · show 0 + c.scans + c'.scans ≤ _ + (1 + c.rounds + c'.rounds)
        omega
      · show _ = _ + (0 + c.relabels + c'.relabels)
        omega

end AHO.CS
