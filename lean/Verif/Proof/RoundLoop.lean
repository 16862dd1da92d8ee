import Verif.Proof.CSPhase
import Verif.Proof.ReferenceAssert
/-!
# `CostScaling::Refine` with rounded capacities: termination

The capacities and excesses may be rounded; the potentials are exact, being small multiples of a power of two.
-/

namespace AHO

/-- What is used of the arithmetic: `G z` is the number `z / C`, and arithmetic on such numbers is exact up to `B / C`. -/
structure GridArith (D : Type) [LinearOrder D] [Zero D] [Add D] [Sub D] [Neg D] [Mul D] [Div D] [IntCast D] (G : Int → D) (C B : Int) : Prop
    extends PosArith D where
  sub_self : ∀ a : D, a - a = 0
  add_zero : ∀ a : D, a + 0 = a
  sub_zero : ∀ a : D, a - 0 = a
  zero : G 0 = 0
  cast : ∀ c : Int, |c * C| ≤ B → (c : D) = G (c * C)
  add : ∀ a b : Int, |a| ≤ B → |b| ≤ B → |a + b| ≤ B → G a + G b = G (a + b)
  sub : ∀ a b : Int, |a| ≤ B → |b| ≤ B → |a - b| ≤ B → G a - G b = G (a - b)
  lt : ∀ a b : Int, |a| ≤ B → |b| ≤ B → (G a < G b ↔ a < b)
  half : ∀ a : Int, |2 * a| ≤ B → |2 * C| ≤ B → G (2 * a) / ((2 : Int) : D) = G a
  mul : ∀ a k : Int, |a| ≤ B → |k * C| ≤ B → |a * k| ≤ B → G a * (k : D) = G (a * k)

namespace CS
open CostScaling
set_option linter.unusedSectionVars false

variable {D : Type} [LinearOrder D] [Zero D] [Add D] [Sub D] [Neg D] [Mul D] [Div D] [IntCast D] [BEq D] [LawfulBEq D]
variable {net : Net}

/-! ### Moving flow -/

section pure
variable (A : PosArith D) (hself : ∀ a : D, a - a = 0) {c : Nat → D} {x : Nat} {f : D}
include A

theorem moved_nonneg' (h : ∀ e, e < net.E → 0 ≤ c e) (ok : net.OK) (hx : x < net.E) (hf0 : 0 ≤ f) (hf : f ≤ c x) :
    ∀ e, e < net.E → 0 ≤ moved c x f e := by
  intro e he
  unfold moved
  split
  · exact A.sub_nonneg _ _ hf
  · split
    · exact A.add_nonneg _ _ (h _ (ok.x_lt x hx)) hf0
    · exact h e he

include hself in
theorem moved_pos' (hf0 : 0 ≤ f) (hf : f ≤ c x) {e : Nat} (h : 0 < moved c x f e) : 0 < c e ∨ e = x ^^^ 1 := by
  unfold moved at h
  split at h
  · rename_i h1; subst h1; left
    refine lt_of_le_of_ne (hf0.trans hf) fun hc => ?_
    have : f = c e := le_antisymm hf (hc ▸ hf0)
    rw [this, hself] at h
    exact lt_irrefl _ h
  · split at h
    · right; assumption
    · left; exact h

end pure

/-! ### The invariant -/

/-- integer potentials -/
def potI (πS : Nat → Int) (H : Int) (k : Nat → Nat) (v : Nat) : Int := πS v + k v * H

/-- integer reduced costs -/
def rcI (net : Net) (C : Int) (π : Nat → Int) (e : Nat) : Int := net.cst e * C - π (net.src e) + π (net.dst e)

theorem rcI_x (ok : net.OK) {C : Int} {e} (he : e < net.E) (π : Nat → Int) : rcI net C π (e ^^^ 1) = -rcI net C π e := by
  unfold rcI
  rw [ok.cst_x e he, ok.src_x e he, ok.dst_x e he]
  ring

/-- The numbers of a phase are small enough; `P` bounds the potentials. -/
structure Small (net : Net) (C B : Int) (πS : Nat → Int) (H P : Int) : Prop where
  hpos : 0 < H
  pot : ∀ v, v < net.N → |πS v| + (6 * net.N + 1) * H ≤ P
  cost : ∀ e, e < net.E → |net.cst e * C| + 2 * P ≤ B
  P_le : P ≤ B
  eps : 6 * net.N * H ≤ B
  eps' : 6 * H ≤ B
  three : 3 * C ≤ B
  nodes : net.N * C ≤ B
  C_pos : 0 < C

/-- The invariant of `Refine` without the stack and the current edges. `πS` are the potentials at the start, `H` is `epsilon / 2`, `k v` counts the
relabellings of `v`, and `rank` orders the nodes along admissible edges. -/
structure RCore (G : Int → D) (net : Net) (C : Int) (πS : Nat → Int) (H : Int) (k rank : Nat → Nat) (s : Refining D) : Prop extends RStatic net s where
  eps : s.epsilon = G (2 * H)
  nonneg : ∀ e, e < net.E → 0 ≤ cap s.toCostScaling e
  pot : ∀ v, v < net.N → s.p.get v = G (potI πS H k v)
  inc : ∀ v, v < net.N → s.incp.get v = G (k v * H)
  opt : ∀ e, e < net.E → 0 < cap s.toCostScaling e → -H ≤ rcI net C (potI πS H k) e
  ord : ∀ e, e < net.E → 0 < cap s.toCostScaling e → rcI net C (potI πS H k) e < 0 → rank (net.dst e) < rank (net.src e)
  rank_lt : ∀ v, v < net.N → rank v < net.N
  rank_inj : ∀ v w, v < net.N → w < net.N → rank v = rank w → v = w
  kb : ∀ v, v < net.N → k v ≤ 6 * net.N + 1

variable {G : Int → D} {C B : Int} {πS : Nat → Int} {H P : Int} {k rank : Nat → Nat} {s s' : Refining D} {u x : Nat} {f : D}

theorem Small.abs_pot (S : Small net C B πS H P) (hk : ∀ v, v < net.N → k v ≤ 6 * net.N + 1) {v : Nat} (hv : v < net.N) :
    |potI πS H k v| ≤ P := by
  unfold potI
  have h1 := S.pot v hv
  have h2 : (k v : Int) * H ≤ (6 * net.N + 1) * H := mul_le_mul_of_nonneg_right (by have := hk v hv; push_cast; omega) S.hpos.le
  have h3 : 0 ≤ (k v : Int) * H := mul_nonneg (by omega) S.hpos.le
  have h4 := abs_add_le (πS v) (k v * H)
  rw [abs_of_nonneg h3] at h4
  omega

/-- potentials in `D` -/
theorem Small.rc_eq (A : GridArith D G C B) (S : Small net C B πS H P) (ok : net.OK) (hk : ∀ v, v < net.N → k v ≤ 6 * net.N + 1) {p : Nat → D}
    (hp : ∀ v, v < net.N → p v = G (potI πS H k v)) {e : Nat} (he : e < net.E) :
    rc net p e = G (rcI net C (potI πS H k) e) ∧ |rcI net C (potI πS H k) e| ≤ B := by
  have h1 := S.abs_pot hk (ok.src_lt e he)
  have h2 := S.abs_pot hk (ok.dst_lt he)
  have h3 := S.cost e he
  have h4 : 0 ≤ P := (abs_nonneg _).trans h1
  have h5 := abs_nonneg (net.cst e * C)
  have h6 := S.P_le
  have h7 := abs_sub (net.cst e * C) (potI πS H k (net.src e))
  have h8 := abs_add_le (net.cst e * C - potI πS H k (net.src e)) (potI πS H k (net.dst e))
  unfold rc rcI
  rw [hp _ (ok.src_lt e he), hp _ (ok.dst_lt he), A.cast _ (by omega), A.sub _ _ (by omega) (by omega) (by omega), A.add _ _ (by omega) (by omega) (by omega)]
  exact ⟨rfl, by omega⟩

theorem Small.B_nonneg (S : Small net C B πS H P) : 0 ≤ B := by
  have := S.eps'; have := S.hpos; omega

theorem RCore.rc_neg (A : GridArith D G C B) (S : Small net C B πS H P) (ok : net.OK) (I : RCore G net C πS H k rank s) {e : Nat} (he : e < net.E) :
    rc net s.p.get e < 0 ↔ rcI net C (potI πS H k) e < 0 := by
  obtain ⟨h1, h2⟩ := S.rc_eq A ok I.kb I.pot he
  rw [h1, ← A.zero, A.lt _ _ h2 (by simpa using S.B_nonneg)]

theorem RCore.rc_nonneg (A : GridArith D G C B) (S : Small net C B πS H P) (ok : net.OK) (I : RCore G net C πS H k rank s) {e : Nat} (he : e < net.E) :
    0 ≤ rc net s.p.get e ↔ 0 ≤ rcI net C (potI πS H k) e := by
  rw [← not_lt, ← not_lt, I.rc_neg A S ok he]

theorem RCore.rev (A : GridArith D G C B) (S : Small net C B πS H P) (ok : net.OK) (I : RCore G net C πS H k rank s) {e : Nat} (he : e < net.E)
    (hw : rc net s.p.get e < 0) : 0 ≤ rc net s.p.get (e ^^^ 1) := by
  rw [I.rc_nonneg A S ok (ok.x_lt e he), rcI_x ok he]
  have := (I.rc_neg A S ok he).1 hw
  omega

section push
variable (A : GridArith D G C B) (sm : Small net C B πS H P)
variable (ok : net.OK) (I : RCore G net C πS H k rank s) (m : Moved net s s' x f) (hx : x < net.E)
  (hw : rc net s.p.get x < 0) (hf0 : 0 ≤ f) (hfc : f ≤ cap s.toCostScaling x)
include A sm ok I m hx hw hf0 hfc

theorem push_pos' {e : Nat} (he : e < net.E) (hp : 0 < cap s'.toCostScaling e) :
    0 < cap s.toCostScaling e ∨ 0 ≤ rc net s.p.get e := by
  rw [m.cap e he] at hp
  rcases moved_pos' A.toPosArith A.sub_self hf0 hfc hp with h1 | h1
  · exact Or.inl h1
  · right; rw [h1]; exact I.rev A sm ok hx hw

theorem push_core' : RCore G net C πS H k rank s' := by
  have hpp := fun {e} => push_pos' A sm ok I m hx hw hf0 hfc (e := e)
  refine ⟨m.st, by rw [m.eps]; exact I.eps, fun e he => ?_, ?_, ?_, fun e he hp => ?_,
    fun e he hp hr => ?_, I.rank_lt, I.rank_inj, I.kb⟩
  · rw [m.cap e he]; exact moved_nonneg' A.toPosArith I.nonneg ok hx hf0 hfc e he
  · rw [m.p]; exact I.pot
  · rw [m.incp]; exact I.inc
  · rcases hpp he hp with h1 | h1
    · exact I.opt e he h1
    · have := (I.rc_nonneg A sm ok he).1 h1
      have := sm.hpos
      omega
  · rcases hpp he hp with h1 | h1
    · exact I.ord e he h1 hr
    · exact absurd hr (not_lt.2 ((I.rc_nonneg A sm ok he).1 h1))

theorem push_cur' {w r : Nat} (hwN : w < net.N) (hc : CurOK net s w r) : CurOK net s' w r := by
  obtain ⟨L0, L, h1, hl, h2, h3⟩ := hc
  refine ⟨L0, L, h1, hl, by rw [m.cur]; exact h2, fun e he hp => ?_⟩
  have heE : e < net.E := ((ok.adj w hwN e).1 (by rw [h1]; exact List.mem_append_left _ he)).1
  rw [m.p]
  rcases push_pos' A sm ok I m hx hw hf0 hfc heE hp with h4 | h4
  · exact h3 e he h4
  · exact h4

theorem push_adm' : adm net s' ≤ adm net s ∧ (f = cap s.toCostScaling x → 0 < f → adm net s' < adm net s) := by
  unfold adm
  have hsub : ((Finset.range net.E).filter fun e => 0 < cap s'.toCostScaling e ∧ rc net s'.p.get e < 0) ⊆
      ((Finset.range net.E).filter fun e => 0 < cap s.toCostScaling e ∧ rc net s.p.get e < 0) := by
    intro e he
    obtain ⟨h1, h2, h3⟩ := Finset.mem_filter.1 he
    rw [m.p] at h3
    refine Finset.mem_filter.2 ⟨h1, ?_, h3⟩
    rcases push_pos' A sm ok I m hx hw hf0 hfc (Finset.mem_range.1 h1) h2 with h4 | h4
    · exact h4
    · exact absurd h3 (not_lt.2 h4)
  refine ⟨Finset.card_le_card hsub, fun h1 h2 => Finset.card_lt_card ⟨hsub, fun hc => ?_⟩⟩
  have := hc (Finset.mem_filter.2 ⟨Finset.mem_range.2 hx, by rw [← h1]; exact h2, hw⟩)
  have := (Finset.mem_filter.1 this).2.1
  rw [m.cap x hx] at this
  unfold moved at this
  rw [if_pos rfl, h1, A.sub_self] at this
  exact lt_irrefl _ this

theorem push_stk' (S : Stk net s (· = net.src x))
    (hst : (0 < s.excess.get (net.dst x) + f ∧ s.vis.get (net.dst x) = false ∧ s'.st = net.dst x :: s.st ∧
          s'.vis = s.vis.set (net.dst x) true) ∨
        (¬ (0 < s.excess.get (net.dst x) + f ∧ s.vis.get (net.dst x) = false) ∧ s'.st = s.st ∧ s'.vis = s.vis)) :
    Stk net s' (· = net.src x) ∧ (s'.st = s.st ∨ s'.st = net.dst x :: s.st ∧ 0 < cap s.toCostScaling x) := by
  have hd := ok.dst_lt hx
  have hne := ok.ne x hx
  have hv := S.vis _ hd
  have hmem := S.mem (net.dst x)
  have hexv : ∀ v, v ≠ net.src x → v ≠ net.dst x → s'.excess.get v = s.excess.get v := by
    intro v h1 h2; rw [m.ex]; unfold shifted; rw [if_neg h1, if_neg h2]
  have hexd : s'.excess.get (net.dst x) = s.excess.get (net.dst x) + f := by
    rw [m.ex]; unfold shifted; rw [if_neg hne.symm, if_pos rfl]
  rcases hst with ⟨h1, h2, h3, h4⟩ | ⟨h1, h2, h3⟩
  · have hnot : net.dst x ∉ s.st := fun hc => by rw [hv.2 hc] at h2; cases h2
    refine ⟨⟨?_, fun v => ?_, fun v hvN => ?_⟩, Or.inr ⟨h3, ?_⟩⟩
    · rw [h3]; exact List.nodup_cons.2 ⟨hnot, S.nodup⟩
    · rw [h3, List.mem_cons, S.mem]
      by_cases hvd : v = net.dst x
      · subst hvd
        rw [hexd]
        exact ⟨fun _ => ⟨hd, h1, hne.symm⟩, fun _ => Or.inl rfl⟩
      · by_cases hvs : v = net.src x
        · simp [hvs, hne]
        · rw [hexv v hvs hvd]
          simp [hvd]
    · rw [h4, h3, List.mem_cons, Vec.set_get]
      by_cases hvd : v = net.dst x
      · simp [hvd]
      · rw [if_neg hvd, S.vis v hvN]; simp [hvd]
    · by_contra hc
      have h5 : f = 0 := le_antisymm (hfc.trans (not_lt.1 hc)) hf0
      rw [h5, A.add_zero] at h1
      exact hnot (hmem.2 ⟨hd, h1, hne.symm⟩)
  · refine ⟨⟨by rw [h2]; exact S.nodup, fun v => ?_, fun v hvN => by rw [h2, h3]; exact S.vis v hvN⟩, Or.inl h2⟩
    rw [h2, S.mem]
    by_cases hvd : v = net.dst x
    · subst hvd
      rw [hexd]
      constructor
      · rintro ⟨a, b, c⟩; exact ⟨a, A.add_pos _ _ b hf0, c⟩
      · rintro ⟨a, b, c⟩
        refine hmem.1 (hv.1 ?_)
        by_contra hf
        exact h1 ⟨b, by simpa using hf⟩
    · by_cases hvs : v = net.src x
      · simp [hvs]
      · rw [hexv v hvs hvd]

end push

theorem cur_step' (I : RCore G net C πS H k rank s) {c : Option Nat} :
    RCore G net C πS H k rank { s with current_edge := s.current_edge.set u c } :=
  ⟨⟨I.toStatic, I.xsz, I.isz, I.csz, I.vsz⟩, I.eps, I.nonneg, I.pot, I.inc, I.opt, I.ord, I.rank_lt, I.rank_inj, I.kb⟩

theorem discharge_ends (A : GridArith D G C B) (sm : Small net C B πS H P) (ok : net.OK) (hu : u < net.N) {r : Nat → Nat} :
    ∀ (L L0 : List Nat) (s : Refining D) (fuel : Nat), L.length < fuel →
    RCore G net C πS H k rank s → net.adj u = L0 ++ L → Chain net.nxt (s.current_edge.get u) L →
    (∀ e ∈ L0, 0 < cap s.toCostScaling e → 0 ≤ rc net s.p.get e) → (∀ w, w < net.N → w ≠ u → CurOK net s w (r w)) →
    Stk net s (· = u) → 0 < s.excess.get u →
    ∃ c s' b, dischargeC u fuel s = .ok (c, s', b) ∧ RCore G net C πS H k rank s' ∧ (∀ w, w < net.N → w ≠ u → CurOK net s' w (r w)) ∧
      Stk net s' (· = u) ∧
      ((b = true ∧ s'.excess.get u = 0 ∧ (∃ ru, CurOK net s' u ru ∧ c + ru ≤ L.length + 1) ∧ weight net rank s' < weight net rank s + rank u) ∨
        (b = false ∧ c ≤ L.length ∧ weight net rank s' ≤ weight net rank s ∧ 0 < s'.excess.get u ∧ ∀ e ∈ net.adj u, 0 < cap s'.toCostScaling e → 0 ≤ rc net s'.p.get e)) := by
  intro L
  induction L with
  | nil =>
    intro L0 s fuel hfu I hadj hch hL0 hcur S hex
    obtain ⟨fuel, rfl⟩ : ∃ g, fuel = g + 1 := ⟨fuel - 1, by simp at hfu; omega⟩
    unfold dischargeC
    have : s.current_edge.get u = none := hch
    rw [Vec.rd_ok (by rw [I.csz]; exact hu), ok_bind, this]
    refine ⟨0, s, false, rfl, I, hcur, S, Or.inr ⟨rfl, le_rfl, le_rfl, hex, ?_⟩⟩
    rw [hadj, List.append_nil]; exact hL0
  | cons x L ih =>
    intro L0 s fuel hfu I hadj hch hL0 hcur S hex
    obtain ⟨fuel, rfl⟩ : ∃ g, fuel = g + 1 := ⟨fuel - 1, by simp at hfu; omega⟩
    obtain ⟨hc1, hc2⟩ := hch
    obtain ⟨hx, hsx⟩ := (ok.adj u hu x).1 (by rw [hadj]; simp)
    subst hsx
    unfold dischargeC
    rw [Vec.rd_ok (by rw [I.csz]; exact hu), ok_bind, hc1]
    dsimp only
    rw [Vec.rd_ok (by rw [I.esz]; exact hx), ok_bind, costPi_ok I.toStatic ok hx, ok_bind]
    -- a step to the next edge
    have next : ∀ s1 : Refining D, RCore G net C πS H k rank s1 → s1.current_edge = s.current_edge →
        (∀ e ∈ L0, 0 < cap s1.toCostScaling e → 0 ≤ rc net s1.p.get e) →
        (0 < cap s1.toCostScaling x → 0 ≤ rc net s1.p.get x) → (∀ w, w < net.N → w ≠ net.src x → CurOK net s1 w (r w)) →
        Stk net s1 (· = net.src x) → 0 < s1.excess.get (net.src x) → weight net rank s1 ≤ weight net rank s →
        ∃ c s' b, (do
          let x_1 ← s1.excess.rd (net.src x)
          if (x_1 == 0) = true then (.ok (1, s1, true) : Res (Nat × Refining D × Bool))
          else do
            let e ← s1.edge.rd x
            let cur ← s1.current_edge.wr (net.src x) e.next
            let (c, r) ← dischargeC (net.src x) fuel { s1 with current_edge := cur }
            .ok (c + 1, r)) = .ok (c, s', b) ∧ RCore G net C πS H k rank s' ∧
          (∀ w, w < net.N → w ≠ net.src x → CurOK net s' w (r w)) ∧
          Stk net s' (· = net.src x) ∧
          ((b = true ∧ s'.excess.get (net.src x) = 0 ∧ (∃ ru, CurOK net s' (net.src x) ru ∧ c + ru ≤ (x :: L).length + 1) ∧
              weight net rank s' < weight net rank s + rank (net.src x)) ∨
            (b = false ∧ c ≤ (x :: L).length ∧ weight net rank s' ≤ weight net rank s ∧ 0 < s'.excess.get (net.src x) ∧
              ∀ e ∈ net.adj (net.src x), 0 < cap s'.toCostScaling e → 0 ≤ rc net s'.p.get e)) := by
      intro s1 I1 e1 e2 e3 e4 e5 e6 e7
      rw [Vec.rd_ok (by rw [I1.xsz]; exact hu), ok_bind, if_neg (by simpa using e6.ne'), Vec.rd_ok (by rw [I1.esz]; exact hx), ok_bind,
        Vec.wr_ok _ (by rw [I1.csz]; exact hu), ok_bind, I1.edge x hx]
      obtain ⟨c, s', b, r1, r2, r3, r4, r6⟩ := ih (L0 ++ [x]) { s1 with current_edge := s1.current_edge.set (net.src x) (net.nxt x) } fuel
        (by simp at hfu; omega) (cur_step' I1) (by rw [hadj]; simp) (by rw [Vec.set_get_self]; exact hc2)
        (by
          intro e he
          rcases List.mem_append.1 he with h1 | h1
          · exact e2 e h1
          · rw [List.mem_singleton.1 h1]; exact e3)
        (by
          intro w hw hwu
          obtain ⟨A, B, a1, al, a2, a3⟩ := e4 w hw hwu
          exact ⟨A, B, a1, al, by rw [Vec.set_get_ne _ _ hwu]; exact a2, a3⟩)
        ⟨e5.nodup, e5.mem, e5.vis⟩ e6
      rw [r1, ok_bind]
      refine ⟨c + 1, s', b, rfl, r2, r3, r4, ?_⟩
      rcases r6 with ⟨c1, c2, ⟨ru, c3, c3'⟩, c4⟩ | ⟨c1, c2, c3, c4, c5⟩
      · refine Or.inl ⟨c1, c2, ⟨ru, c3, by rw [List.length_cons]; omega⟩, ?_⟩
        have c4 : weight net rank s' < weight net rank s1 + rank (net.src x) := c4
        omega
      · have c3 : weight net rank s' ≤ weight net rank s1 := c3
        exact Or.inr ⟨c1, by rw [List.length_cons]; omega, by omega, c4, c5⟩
    by_cases hw : rc net s.p.get x < 0
    · rw [if_pos hw, Vec.rd_ok (by rw [I.xsz]; exact hu), ok_bind]
      set f := dmin (s.edge.get x).capacity (s.excess.get (net.src x)) with hf
      have hcap : (s.edge.get x).capacity = cap s.toCostScaling x := rfl
      have hfc : f ≤ cap s.toCostScaling x := by
        rw [hf, hcap]; unfold dmin; split
        · exact le_of_lt (by assumption)
        · exact le_rfl
      have hfx : f ≤ s.excess.get (net.src x) := by
        rw [hf]; unfold dmin; split
        · exact le_rfl
        · exact not_lt.1 (by assumption)
      have hf0 : 0 ≤ f := by
        rw [hf, hcap]; unfold dmin; split
        · exact hex.le
        · exact I.nonneg x hx
      have hfor : f = cap s.toCostScaling x ∨ f = s.excess.get (net.src x) := by
        rw [hf, hcap]; unfold dmin; split
        · exact Or.inr rfl
        · exact Or.inl rfl
      obtain ⟨s1, p1, m, p2⟩ := push_spec ok I.toRStatic hx f
      rw [p1, ok_bind]
      have I1 := push_core' A sm ok I m hx hw hf0 hfc
      obtain ⟨S1, S2⟩ := push_stk' A sm ok I m hx hw hf0 hfc S p2
      obtain ⟨A1, A2⟩ := push_adm' A sm ok I m hx hw hf0 hfc
      have hex1 : s1.excess.get (net.src x) = s.excess.get (net.src x) - f := by
        rw [m.ex]; unfold shifted; rw [if_pos rfl]
      have hcur1 : ∀ w, w < net.N → w ≠ net.src x → CurOK net s1 w (r w) := fun w hw' hwu =>
        push_cur' A sm ok I m hx hw hf0 hfc hw' (hcur w hw' hwu)
      have hL1 : ∀ e ∈ L0, 0 < cap s1.toCostScaling e → 0 ≤ rc net s1.p.get e := by
        intro e he hp
        have heE : e < net.E := ((ok.adj _ hu e).1 (by rw [hadj]; exact List.mem_append_left _ he)).1
        rw [m.p]
        rcases push_pos' A sm ok I m hx hw hf0 hfc heE hp with h4 | h4
        · exact hL0 e he h4
        · exact h4
      have hord : 0 < cap s.toCostScaling x → rank (net.dst x) < rank (net.src x) := fun h => I.ord x hx h ((I.rc_neg A sm ok hx).1 hw)
      have hht : height rank s1 ≤ height rank s + rank (net.src x) - 1 ∧ (height rank s1 = height rank s ∨ 0 < cap s.toCostScaling x) ∨
          height rank s1 = height rank s := by
        rcases S2 with h1 | ⟨h1, h2⟩
        · right; unfold height; rw [h1]
        · left
          have := hord h2
          unfold height
          rw [h1, List.map_cons, List.sum_cons]
          exact ⟨by omega, Or.inr h2⟩
      by_cases hz : s1.excess.get (net.src x) = 0
      · rw [Vec.rd_ok (by rw [I1.xsz]; exact hu), ok_bind, if_pos (by simpa using hz)]
        refine ⟨1, s1, true, rfl, I1, hcur1, S1, Or.inl ⟨rfl, hz, ⟨_, ⟨L0, x :: L, hadj, rfl, ?_, hL1⟩, by omega⟩, ?_⟩⟩
        · rw [m.cur]; exact ⟨hc1, hc2⟩
        · have hfp : 0 < f := by
            refine lt_of_le_of_ne hf0 fun h0 => ?_
            rw [hex1, ← h0, A.sub_zero] at hz
            exact hex.ne' hz
          have hr := hord (lt_of_lt_of_le hfp hfc)
          have := Nat.mul_le_mul_right net.N A1
          unfold weight
          rcases hht with ⟨h1, -⟩ | h1 <;> omega
      · have hfe : f = cap s.toCostScaling x := by
          rcases hfor with h1 | h1
          · exact h1
          · exact absurd (by rw [hex1, h1, A.sub_self]) hz
        refine next s1 I1 m.cur hL1 (fun hp => ?_) hcur1 S1 ?_ ?_
        · rw [m.cap x hx] at hp
          unfold moved at hp
          rw [if_pos rfl, hfe, A.sub_self] at hp
          exact absurd hp (lt_irrefl _)
        · rw [hex1] at hz ⊢
          exact lt_of_le_of_ne (A.sub_nonneg _ _ hfx) (fun h => hz h.symm)
        · unfold weight
          rcases S2 with h1 | ⟨h1, h2⟩
          · have := Nat.mul_le_mul_right net.N A1
            unfold height
            rw [h1]; omega
          · have h3 := Nat.mul_le_mul_right net.N (Nat.succ_le_of_lt (A2 hfe (by rw [hfe]; exact h2)))
            rw [Nat.succ_mul] at h3
            have h4 := I.rank_lt _ (ok.dst_lt hx)
            unfold height
            rw [h1, List.map_cons, List.sum_cons]
            omega
    · rw [if_neg hw, ok_bind]
      exact next s I rfl hL0 (fun _ => not_lt.1 hw) hcur S hex le_rfl

/-! ### Relabelling -/

/-- relabellings to come, weighted, if there are at most `M` of each node -/
def todoM (M : Nat) (net : Net) (k g : Nat → Nat) : Nat := ∑ w ∈ Finset.range net.N, (M - k w) * g w

theorem todoM_update {M : Nat} {k g : Nat → Nat} (hu : u < net.N) (hk : k u < M) :
    todoM M net (Function.update k u (k u + 1)) g + g u = todoM M net k g := by
  unfold todoM
  have hm : u ∈ Finset.range net.N := Finset.mem_range.2 hu
  rw [← Finset.add_sum_erase _ _ hm, ← Finset.add_sum_erase _ (fun w => (M - k w) * g w) hm, Function.update_self]
  have h1 : ∑ w ∈ (Finset.range net.N).erase u, (M - Function.update k u (k u + 1) w) * g w =
      ∑ w ∈ (Finset.range net.N).erase u, (M - k w) * g w := by
    refine Finset.sum_congr rfl fun w hw => ?_
    rw [Function.update_of_ne (Finset.ne_of_mem_erase hw)]
  have h2 : (M - k u) * g u = (M - (k u + 1)) * g u + g u := by
    rw [← Nat.succ_mul]; congr 1; omega
  rw [h1, h2]
  omega

/-- The measure which decreases with every round. -/
def muR (net : Net) (k : Nat → Nat) (w : Nat) : Nat := todoM (6 * net.N + 1) net k (fun v => net.deg v + 1) * net.N + w

/-- The edges which the loops over the edges of a node can still visit; `r v` are those left of `v`. -/
def nuR (net : Net) (k r : Nat → Nat) : Nat := todoM (6 * net.N + 1) net k net.deg + ∑ w ∈ Finset.range net.N, r w

theorem potI_update (v : Nat) : potI πS H (Function.update k u (k u + 1)) v = if v = u then potI πS H k u + H else potI πS H k v := by
  unfold potI
  by_cases h : v = u
  · subst h; rw [Function.update_self, if_pos rfl]; push_cast; ring
  · rw [Function.update_of_ne h, if_neg h]

theorem relabel_core' (A : GridArith D G C B) (sm : Small net C B πS H P) (ok : net.OK) (I : RCore G net C πS H k rank s) (hu : u < net.N)
    (hku : k u ≤ 6 * net.N) (hadj : ∀ e ∈ net.adj u, 0 < cap s.toCostScaling e → 0 ≤ rc net s.p.get e) :
    ∃ s', relabel u s = .ok s' ∧
      RCore G net C πS H (Function.update k u (k u + 1)) (top net.N u rank) s' ∧
      s'.current_edge = s.current_edge ∧ s'.st = s.st ∧ s'.vis = s.vis ∧ s'.excess = s.excess ∧
      (∀ e, cap s'.toCostScaling e = cap s.toCostScaling e) ∧
      (∀ e, e < net.E → net.src e ≠ u → 0 ≤ rc net s.p.get e → 0 ≤ rc net s'.p.get e) := by
  have hp := sm.hpos
  have hPB := sm.P_le
  have h6 := sm.eps'
  have hkb : ∀ v, v < net.N → Function.update k u (k u + 1) v ≤ 6 * net.N + 1 := by
    intro v hv
    by_cases h1 : v = u
    · subst h1; rw [Function.update_self]; omega
    · rw [Function.update_of_ne h1]; exact I.kb v hv
  have hh : s.epsilon / ((2 : Int) : D) = G H := by
    rw [I.eps]
    refine A.half _ ?_ ?_
    · rw [abs_of_nonneg (by omega)]; omega
    · have := sm.three; have := sm.C_pos
      rw [abs_of_nonneg (by omega)]; omega
  have habs : |H| ≤ B := by rw [abs_of_pos hp]; omega
  have hpu : G (potI πS H k u) + G H = G (potI πS H k u + H) := by
    have h1 := sm.abs_pot I.kb hu
    have h2 := sm.abs_pot hkb hu
    rw [potI_update, if_pos rfl] at h2
    exact A.add _ _ (by omega) habs (by omega)
  have hiu : G (k u * H) + G H = G (k u * H + H) := by
    have h1 : (k u : Int) * H ≤ 6 * net.N * H := mul_le_mul_of_nonneg_right (by omega) hp.le
    have h2 : 0 ≤ (k u : Int) * H := mul_nonneg (by omega) hp.le
    have h3 := sm.pot u hu
    have h4 := abs_nonneg (πS u)
    rw [add_mul, one_mul] at h3
    exact A.add _ _ (by rw [abs_of_nonneg h2]; omega) habs (by rw [abs_of_nonneg (by omega)]; omega)
  set k' := Function.update k u (k u + 1) with hk'
  have hmono : ∀ e, e < net.E → net.src e ≠ u → rcI net C (potI πS H k) e ≤ rcI net C (potI πS H k') e := by
    intro e he hs
    unfold rcI
    rw [hk', potI_update, if_neg hs, potI_update]
    split
    · rename_i h; rw [h]; omega
    · omega
  have hout : ∀ e, e < net.E → net.src e = u → rcI net C (potI πS H k') e = rcI net C (potI πS H k) e - H := by
    intro e he hs
    have hd : net.dst e ≠ u := by rw [← hs]; exact (ok.ne e he).symm
    unfold rcI
    rw [hk', potI_update, potI_update, if_pos hs, if_neg hd, hs]; ring
  have hin : ∀ e, e < net.E → net.dst e = u → rcI net C (potI πS H k') e = rcI net C (potI πS H k) e + H := by
    intro e he hd
    have hs : net.src e ≠ u := by rw [← hd]; exact ok.ne e he
    unfold rcI
    rw [hk', potI_update, potI_update, if_neg hs, if_pos hd, hd]; ring
  have hmem : ∀ e, e < net.E → net.src e = u → 0 < cap s.toCostScaling e → 0 ≤ rcI net C (potI πS H k) e := fun e he hs h =>
    (I.rc_nonneg A sm ok he).1 (hadj e ((ok.adj u hu e).2 ⟨he, hs⟩) h)
  unfold relabel
  rw [Vec.rd_ok (by rw [I.psz]; exact hu), ok_bind, Vec.wr_ok _ (by rw [I.psz]; exact hu), ok_bind,
    Vec.rd_ok (by rw [I.isz]; exact hu), ok_bind, Vec.wr_ok _ (by rw [I.isz]; exact hu), ok_bind, hh]
  have I' : RCore G net C πS H k' (top net.N u rank) { s with p := s.p.set u (s.p.get u + G H), incp := s.incp.set u (s.incp.get u + G H) } := by
    refine ⟨⟨⟨I.N, I.psz, I.hsz, I.head, I.esz, I.edge⟩, I.xsz, I.isz, I.csz, I.vsz⟩, I.eps, I.nonneg,
      fun v hv => ?_, fun v hv => ?_, fun e he hc => ?_, fun e he hc hr => ?_, fun v hv => ?_, fun v w hv hw hvw => ?_, hkb⟩
    · show (s.p.set u (s.p.get u + G H)).get v = _
      rw [Vec.set_get, hk', potI_update]
      by_cases h1 : v = u
      · subst h1; rw [if_pos rfl, if_pos rfl, I.pot v hv, hpu]
      · rw [if_neg h1, if_neg h1, I.pot v hv]
    · show (s.incp.set u (s.incp.get u + G H)).get v = _
      rw [Vec.set_get]
      by_cases h1 : v = u
      · subst h1
        rw [if_pos rfl, I.inc v hv, hiu, hk', Function.update_self]
        congr 1; push_cast; ring
      · rw [if_neg h1, hk', Function.update_of_ne h1, I.inc v hv]
    · by_cases h1 : net.src e = u
      · rw [hout e he h1]
        have := hmem e he h1 hc
        omega
      · exact (I.opt e he hc).trans (hmono e he h1)
    · have hc : 0 < cap s.toCostScaling e := hc
      have hd : net.dst e ≠ u := by
        intro hd
        rw [hin e he hd] at hr
        have := I.opt e he hc
        omega
      have hdl := I.rank_lt _ (ok.dst_lt he)
      have hul := I.rank_lt u hu
      unfold top
      rw [if_neg hd]
      by_cases h1 : net.src e = u
      · rw [if_pos h1]
        have hdu : rank (net.dst e) ≠ rank u := fun hc => hd (I.rank_inj _ _ (ok.dst_lt he) hu hc)
        split <;> omega
      · rw [if_neg h1]
        have h2 := I.ord e he hc (lt_of_le_of_lt (hmono e he h1) hr)
        have hsu : rank (net.src e) ≠ rank u := fun hc => h1 (I.rank_inj _ _ (ok.src_lt e he) hu hc)
        have hdu : rank (net.dst e) ≠ rank u := fun hc => hd (I.rank_inj _ _ (ok.dst_lt he) hu hc)
        split <;> split <;> omega
    · have h1 := I.rank_lt v hv
      have h2 := I.rank_lt u hu
      unfold top
      split
      · omega
      · split <;> omega
    · have h1 := I.rank_lt v hv
      have h2 := I.rank_lt w hw
      have h3 := I.rank_lt u hu
      have h4 : v ≠ u → rank v ≠ rank u := fun hc h => hc (I.rank_inj _ _ hv hu h)
      have h5 : w ≠ u → rank w ≠ rank u := fun hc h => hc (I.rank_inj _ _ hw hu h)
      unfold top at hvw
      by_cases a1 : v = u <;> by_cases a2 : w = u
      · rw [a1, a2]
      · rw [if_pos a1, if_neg a2] at hvw
        have := h5 a2
        split at hvw <;> omega
      · rw [if_neg a1, if_pos a2] at hvw
        have := h4 a1
        split at hvw <;> omega
      · rw [if_neg a1, if_neg a2] at hvw
        have := h4 a1
        have := h5 a2
        refine I.rank_inj v w hv hw ?_
        split at hvw <;> split at hvw <;> omega
  refine ⟨_, rfl, I', rfl, rfl, rfl, rfl, fun _ => rfl, fun e he hs h => ?_⟩
  exact (I'.rc_nonneg A sm ok he).2 (((I.rc_nonneg A sm ok he).1 h).trans (hmono e he hs))

theorem relabel_weight' (I : RCore G net C πS H k rank s) (hu : u < net.N) (hnot : u ∉ s.st)
    {s' : Refining D} (hs : s'.st = u :: s.st) (hcap : ∀ e, cap s'.toCostScaling e = cap s.toCostScaling e)
    (hrc : ∀ e, e < net.E → net.src e ≠ u → 0 ≤ rc net s.p.get e → 0 ≤ rc net s'.p.get e) :
    weight net (top net.N u rank) s' < weight net rank s + (net.deg u + 1) * net.N := by
  have hul := I.rank_lt u hu
  have ha : adm net s' ≤ adm net s + net.deg u := by
    unfold adm Net.deg
    refine le_trans (Finset.card_le_card fun e he => ?_) (Finset.card_union_le _ _)
    obtain ⟨h1, h2, h3⟩ := Finset.mem_filter.1 he
    rw [Finset.mem_union, Finset.mem_filter, Finset.mem_filter]
    by_cases hsu : net.src e = u
    · exact Or.inr ⟨h1, hsu⟩
    · rw [hcap] at h2
      exact Or.inl ⟨h1, h2, not_le.1 fun h => absurd h3 (not_lt.2 (hrc e (Finset.mem_range.1 h1) hsu h))⟩
  have hh : height (top net.N u rank) s' ≤ height rank s + (net.N - 1) := by
    unfold height
    rw [hs, List.map_cons, List.sum_cons]
    have h1 : top net.N u rank u = net.N - 1 := by unfold top; rw [if_pos rfl]
    have h2 : (s.st.map (top net.N u rank)).sum ≤ (s.st.map rank).sum := by
      refine List.sum_le_sum fun v hv => ?_
      unfold top
      rw [if_neg (fun hc : v = u => hnot (hc ▸ hv))]
      split <;> omega
    omega
  unfold weight
  have h1 := Nat.mul_le_mul_right net.N ha
  rw [Nat.add_mul] at h1
  rw [Nat.add_mul, one_mul]
  omega

theorem modify_ends (A : GridArith D G C B) (sm : Small net C B πS H P) (ok : net.OK) (I : RCore G net C πS H k rank s) (hu : u < net.N)
    (hku : k u ≤ 6 * net.N) {r : Nat → Nat} (hcur : ∀ w, w < net.N → CurOK net s w (r w))
    (S : Stk net s (· = u)) (hex : 0 < s.excess.get u) {fuel : Nat} (hf : net.E < fuel) :
    ∃ c s' k' rank' r', modifyC fuel u s = .ok (c, s') ∧ RCore G net C πS H k' rank' s' ∧ (∀ w, w < net.N → CurOK net s' w (r' w)) ∧
      Stk net s' (fun _ => False) ∧
      muR net k' (weight net rank' s') < muR net k (weight net rank s + rank u) ∧
      c.phases = 0 ∧ c.rounds = 0 ∧ c.scans + nuR net k' r' ≤ nuR net k r + 1 ∧
      ∑ w ∈ Finset.range net.N, k' w = ∑ w ∈ Finset.range net.N, k w + c.relabels := by
  obtain ⟨L0, L, a1, al, a2, a3⟩ := hcur u hu
  have hlen : L.length < fuel := by
    have h1 := ok.len hu
    have h2 : L.length ≤ (net.adj u).length := by rw [a1]; simp
    omega
  obtain ⟨c, s1, b, e1, I1, c1, S1, q⟩ := discharge_ends A sm ok hu L L0 s fuel hlen I a1 a2 a3 (fun w hw _ => hcur w hw) S hex
  unfold modifyC
  rw [Vec.rd_ok (by rw [I.xsz]; exact hu), ok_bind, if_pos hex, e1, ok_bind]
  dsimp only
  rcases q with ⟨rfl, r1, ⟨ru, r2, r2'⟩, r3⟩ | ⟨rfl, r0, r3, r1, r2⟩
  · refine ⟨_, s1, k, rank, Function.update r u ru, rfl, I1, fun w hw => ?_, ⟨S1.nodup, fun v => ?_, S1.vis⟩, ?_, rfl, rfl, ?_, rfl⟩
    · by_cases hwu : w = u
      · rw [hwu, Function.update_self]; exact r2
      · rw [Function.update_of_ne hwu]; exact c1 w hw hwu
    · rw [S1.mem]
      constructor
      · rintro ⟨a, b, -⟩; exact ⟨a, b, not_false⟩
      · rintro ⟨a, b, -⟩; exact ⟨a, b, fun hc => by rw [hc, r1] at b; exact lt_irrefl _ b⟩
    · unfold muR
      omega
    · show c + _ ≤ _
      have := sum_change (N := net.N) (r := r) (x := ru) hu
      unfold nuR
      omega
  · simp only [Bool.false_eq_true, if_false]
    rw [Vec.rd_ok (by rw [I1.xsz]; exact hu), ok_bind, if_pos r1]
    obtain ⟨s2, e2, I2, f1, f2, f3, f4, f6, f7⟩ := relabel_core' A sm ok I1 hu hku r2
    rw [e2, ok_bind, Vec.rd_ok (by rw [I2.hsz]; exact hu), ok_bind, Vec.wr_ok _ (by rw [I2.csz]; exact hu), ok_bind,
      Vec.wr_ok _ (by rw [I2.vsz]; exact hu), ok_bind]
    have hnot : u ∉ s1.st := fun hc => ((S1.mem u).1 hc).2.2 rfl
    have S3 : Stk net { s2 with
        current_edge := s2.current_edge.set u (s2.head.get u), st := u :: s2.st, vis := s2.vis.set u true } (fun _ => False) := by
      refine ⟨?_, fun v => ?_, fun v hv => ?_⟩
      · show (u :: s2.st).Nodup
        rw [f2]; exact List.nodup_cons.2 ⟨hnot, S1.nodup⟩
      · show v ∈ u :: s2.st ↔ v < net.N ∧ 0 < s2.excess.get v ∧ ¬ False
        rw [f2, f4, List.mem_cons, S1.mem]
        by_cases h1 : v = u
        · subst h1; exact ⟨fun _ => ⟨hu, r1, not_false⟩, fun _ => Or.inl rfl⟩
        · simp [h1]
      · show (s2.vis.set u true).get v = true ↔ v ∈ u :: s2.st
        rw [f2, f3, Vec.set_get, List.mem_cons]
        by_cases h1 : v = u
        · simp [h1]
        · rw [if_neg h1, S1.vis v hv]; simp [h1]
    have I3 : RCore G net C πS H (Function.update k u (k u + 1)) (top net.N u rank)
        { s2 with current_edge := s2.current_edge.set u (s2.head.get u), st := u :: s2.st, vis := s2.vis.set u true } :=
      ⟨⟨I2.toStatic, I2.xsz, I2.isz, I2.csz, I2.vsz⟩, I2.eps, I2.nonneg, I2.pot, I2.inc, I2.opt, I2.ord, I2.rank_lt, I2.rank_inj, I2.kb⟩
    have hkm : k u < 6 * net.N + 1 := by omega
    refine ⟨_, _, _, _, Function.update r u (net.deg u), rfl, I3, fun w hw => ?_, S3, ?_, rfl, rfl, ?_, sum_update hu⟩
    · by_cases hwu : w = u
      · subst hwu
        rw [Function.update_self]
        refine ⟨[], net.adj w, rfl, ok.deg_eq hu, ?_, by simp⟩
        show Chain net.nxt ((s2.current_edge.set w (s2.head.get w)).get w) _
        rw [Vec.set_get_self, I2.head w hw]
        exact ok.chain w hw
      · rw [Function.update_of_ne hwu]
        obtain ⟨A, B, b1, bl, b2, b3⟩ := c1 w hw hwu
        refine ⟨A, B, b1, bl, ?_, fun e he hc => ?_⟩
        · show Chain net.nxt ((s2.current_edge.set u (s2.head.get u)).get w) _
          rw [Vec.set_get_ne _ _ hwu, f1]; exact b2
        · have hc : 0 < cap s2.toCostScaling e := hc
          rw [f6] at hc
          obtain ⟨heE, hes⟩ := (ok.adj w hw e).1 (by rw [b1]; exact List.mem_append_left _ he)
          exact f7 e heE (by rw [hes]; exact hwu) (b3 e he hc)
    · have hw := relabel_weight' I1 hu hnot
        (s' := { s2 with current_edge := s2.current_edge.set u (s2.head.get u), st := u :: s2.st, vis := s2.vis.set u true })
        (by show u :: s2.st = _; rw [f2]) f6 f7
      have ht := todoM_update (net := net) (g := fun v => net.deg v + 1) hu hkm
      unfold muR
      rw [← ht, Nat.add_mul]
      omega
    · show c + _ ≤ _
      have h1 := sum_change (N := net.N) (r := r) (x := net.deg u) hu
      have h2 := todoM_update (net := net) (g := net.deg) hu hkm
      unfold nuR
      omega

theorem refineLoop_ends (A : GridArith D G C B) (sm : Small net C B πS H P) (ok : net.OK) {fuel : Nat} (hf : net.E < fuel) :
    ∀ (n : Nat) (s : Refining D) (k rank r : Nat → Nat), RCore G net C πS H k rank s → (∀ w, w < net.N → CurOK net s w (r w)) →
      Stk net s (fun _ => False) → muR net k (weight net rank s) < n →
      ∃ c s' b k' rank', refineLoopC fuel n s = .ok (c, s', b) ∧ RCore G net C πS H k' rank' s' ∧
        c.phases = 0 ∧ c.rounds ≤ muR net k (weight net rank s) + 1 ∧ c.scans ≤ nuR net k r + c.rounds ∧
        ∑ w ∈ Finset.range net.N, k' w = ∑ w ∈ Finset.range net.N, k w + c.relabels := by
  intro n
  induction n with
  | zero => intro s k rank r _ _ _ h; omega
  | succ n ih =>
    intro s k rank r I hcur S hmu
    unfold refineLoopC
    cases hst : s.st with
    | nil => exact ⟨0, s, true, k, rank, rfl, I, rfl, Nat.zero_le _, Nat.zero_le _, rfl⟩
    | cons u st =>
      simp only []
      obtain ⟨hu, hex, -⟩ := (S.mem u).1 (by rw [hst]; simp)
      have hnd := S.nodup
      rw [hst, List.nodup_cons] at hnd
      have I1 : RCore G net C πS H k rank { s with st := st, vis := s.vis.set u false } :=
        ⟨⟨I.toStatic, I.xsz, I.isz, I.csz, I.vsz⟩, I.eps, I.nonneg, I.pot, I.inc, I.opt, I.ord, I.rank_lt, I.rank_inj, I.kb⟩
      have S1 : Stk net { s with st := st, vis := s.vis.set u false } (· = u) := by
        refine ⟨hnd.2, fun v => ?_, fun v hv => ?_⟩
        · show v ∈ st ↔ v < net.N ∧ 0 < s.excess.get v ∧ ¬ v = u
          have := S.mem v
          rw [hst, List.mem_cons] at this
          constructor
          · intro hm
            obtain ⟨a, b, -⟩ := this.1 (Or.inr hm)
            exact ⟨a, b, fun hc => hnd.1 (by rw [← hc]; exact hm)⟩
          · rintro ⟨a, b, c⟩
            exact (this.2 ⟨a, b, not_false⟩).resolve_left c
        · show (s.vis.set u false).get v = true ↔ v ∈ st
          rw [Vec.set_get]
          by_cases h1 : v = u
          · subst h1; simp [hnd.1]
          · rw [if_neg h1, S.vis v hv, hst, List.mem_cons]; simp [h1]
      rw [Vec.wr_ok _ (by rw [I.vsz]; exact hu), ok_bind]
      rw [Vec.rd_ok (by rw [I.isz]; exact hu), ok_bind]
      have hp := sm.hpos
      have hkH : 0 ≤ (k u : Int) * H := mul_nonneg (by omega) hp.le
      have hchk : s.epsilon * ((3 : Int) : D) * ((s.N : Int) : D) < s.incp.get u ↔ 6 * net.N < k u := by
        have e1 := sm.eps'
        have e2 := sm.eps
        have e3 := sm.three
        have e4 := sm.nodes
        have e5 := sm.C_pos
        have e6 : 0 ≤ 6 * (net.N : Int) * H := mul_nonneg (by omega) hp.le
        have e7 : 0 ≤ (net.N : Int) * C := mul_nonneg (by omega) e5.le
        have e8 := sm.pot u hu
        have e9 := abs_nonneg (πS u)
        have e10 : (k u : Int) * H ≤ (6 * net.N + 1) * H := mul_le_mul_of_nonneg_right (by have := I.kb u hu; omega) hp.le
        have e11 := sm.P_le
        have e12 : 2 * H * 3 * net.N = 6 * net.N * H := by ring
        rw [I.inc u hu, I.eps, I.N, A.mul _ _ (by rw [abs_of_nonneg (by omega)]; omega) (by rw [abs_of_nonneg (by omega)]; omega)
          (by rw [abs_of_nonneg (by omega)]; omega), A.mul _ _ (by rw [abs_of_nonneg (by omega)]; omega) (by rw [abs_of_nonneg e7]; omega)
          (by rw [e12, abs_of_nonneg e6]; omega), e12, A.lt _ _ (by rw [abs_of_nonneg e6]; omega) (by rw [abs_of_nonneg hkH]; omega)]
        rw [mul_lt_mul_iff_of_pos_right hp]
        omega
      by_cases hk : 6 * net.N < k u
      · rw [if_pos (hchk.2 hk)]
        exact ⟨_, _, false, k, rank, rfl, I1, rfl, by show 1 ≤ _; omega, Nat.zero_le _, rfl⟩
      · rw [if_neg fun h => hk (hchk.1 h)]
        obtain ⟨c, s', k', rank', r', e1, I2, c2, S2, m2, p1, p2, p3, p4⟩ := modify_ends A sm ok I1 hu (by omega) (r := r) hcur S1 hex hf
        rw [e1, ok_bind]
        dsimp only
        have hwt : weight net rank s = weight net rank { s with st := st, vis := s.vis.set u false } + rank u := by
          have : height rank s = height rank { s with st := st, vis := s.vis.set u false } + rank u := by
            unfold height
            rw [hst, List.map_cons, List.sum_cons]
            exact Nat.add_comm _ _
          unfold weight
          rw [this]
          exact (Nat.add_assoc _ _ _).symm
        rw [← hwt] at m2
        obtain ⟨c', s'', b, k'', rank'', e3, I3, q1, q2, q3, q4⟩ := ih s' k' rank' r' I2 c2 S2
          (lt_of_lt_of_le m2 (Nat.lt_succ_iff.1 hmu))
        rw [e3, ok_bind]
        refine ⟨_, s'', b, k'', rank'', rfl, I3, ?_, ?_, ?_, ?_⟩
        · show 0 + c.phases + c'.phases = 0
          omega
        · show 1 + c.rounds + c'.rounds ≤ _
          omega
        · show 0 + c.scans + c'.scans ≤ _ + (1 + c.rounds + c'.rounds)
          omega
        · show _ = _ + (0 + c.relabels + c'.relabels)
          omega

end CS
end AHO
