import Verif.Proof.FlowAmort
import Verif.Proof.Rounds
/-!
# Running time of the loop of `Flow::min_cost`
-/

namespace AHO
open Spec Flow LCT

namespace Flow
variable {K : Type} [Field K] [LinearOrder K] [IsStrictOrderedRing K]
variable {R : Type} [Zero R] [One R] [Add R] [Sub R] [Neg R] [Mul R] [Div R] [IntCast R] [BEq R] [LT R] [LE R]
  [DecidableLT R] [DecidableLE R] {E : FEmb K R} {ed : Vec (OmegaLimit R)} {C : K}
variable {net : Net K} {h : Int} {s s' : Flow K} {f w : Nat → K} {τ : Nat → Nat} {tr : Nat → T} {imax : Int} {fuel p : Nat} {c : Cost}

/-- the edges already inspected -/
def cesum (net : Net K) (s : Flow K) : Nat := ∑ v ∈ Finset.range (net.n + 1), s.currentEdge.get v

/-- the edges inspected before, and during, the relabellings `k` -/
def relsum (net : Net K) (k : Nat → Nat) : Nat := ∑ v ∈ Finset.range (net.n + 1), 2 * (net.out v).length * k v

def CE (net : Net K) (s : Flow K) : Prop := ∀ v, v ≤ net.n → s.currentEdge.get v ≤ (net.out v).length

/-- the account after some rounds -/
structure Acc (net : Net K) (c0 : Cost) (s : Flow K) (tr : Nat → T) (k : Nat → Nat) (c1 : Cost) (s' : Flow K) (tr' : Nat → T) (k' : Nat → Nat) :
    Prop where
  size : s'.nodes.size = s.nodes.size
  I : LCT.SInv s'.nodes s'.fa.get tr'
  ce : CE net s'
  walk : (c1.walk : ℝ) + s.nodes.size * nr s' + 3 * s.nodes.size * c0.rounds ≤ c0.walk + s.nodes.size * nr s + 3 * s.nodes.size * c1.rounds
  steps : (c1.steps : ℝ) + phi s' tr' + 9 * opA s.nodes.size * c0.rounds ≤ c0.steps + phi s tr + 9 * opA s.nodes.size * c1.rounds
  iters : c1.iters + cesum net s + relsum net k + c0.rounds ≤ c0.iters + cesum net s' + relsum net k' + c1.rounds
  ev : c1.evals + 2 * nr s' + 2 * c0.iters + 4 * c0.rounds ≤ c0.evals + 2 * nr s + 2 * c1.iters + 4 * c1.rounds

theorem Acc.trans {c0 c1 c2 : Cost} {s1 s2 : Flow K} {t0 t1 t2 : Nat → T} {k0 k1 k2 : Nat → Nat} (a : Acc net c0 s t0 k0 c1 s1 t1 k1)
    (b : Acc net c1 s1 t1 k1 c2 s2 t2 k2) : Acc net c0 s t0 k0 c2 s2 t2 k2 := by
  have h1 := a.walk; have h2 := b.walk
  have h3 := a.steps; have h4 := b.steps
  have h5 := a.iters; have h6 := b.iters
  have h7 := a.ev; have h8 := b.ev
  rw [a.size] at h2 h4
  exact ⟨b.size.trans a.size, b.I, b.ce, by linarith, by linarith, by omega, by omega⟩

theorem sum_upd {n p : Nat} (hp : p ≤ n) {a b : Nat → Nat} (h : ∀ v, v ≠ p → v ≤ n → a v = b v) :
    ∑ v ∈ Finset.range (n + 1), a v + b p = ∑ v ∈ Finset.range (n + 1), b v + a p := by
  have hm : p ∈ Finset.range (n + 1) := by simp; omega
  rw [← Finset.add_sum_erase _ _ hm, ← Finset.add_sum_erase (Finset.range (n + 1)) b hm,
    Finset.sum_congr rfl (g := b) fun v hv => h v (Finset.ne_of_mem_erase hv)
      (by have := Finset.mem_of_mem_erase hv; simp at this; omega)]
  show a p + _ + b p = b p + _ + a p
  ring

theorem RInv.stepC (ok : net.OK) (rm : Room E ed net C) {imax c f0 p0 B k xs fuel} (hfuel : net.n + 2 ≤ fuel)
    (hfuel2 : net.E + 1 ≤ fuel) (St : Start net imax h c f0 p0 B) (Rv : RInv E C net h c p0 B s f w τ k)
    (hq : s.uq.queue = p :: xs) (T : LCT.SInv s.nodes s.fa.get tr) (hce : CE net s) (c0 : Cost) {cc : Cost} {s'}
    (e : refineStepC imax fuel s = .ok (cc, s')) :
    ∃ f' w' τ' k' tr', RInv E C net h c p0 B s' f' w' τ' k' ∧ measR net B s' f' k' < measR net B s f k ∧ cc.rounds = 1 ∧
      Acc net c0 s tr k (c0 + cc) s' tr' k' := by
  have hpos := St.hpos
  have hp : p ≤ net.n := by
    have := Rv.A.uok.lt p (by rw [hq]; simp)
    rw [Rv.A.I.st.qsz] at this; omega
  have hact : 0 < s.imbalances.get p := (Rv.A.mem p hp).1 (by rw [hq]; simp)
  obtain ⟨s1, f1, w1, τ1, k1, e1, e2, e3, e4, -⟩ := Rv.step ok rm hfuel hfuel2 St hq
  have hs : s1 = s' := by
    have := (refineStepC_er imax fuel s).to_ok e
    rw [e1] at this; cases this; rfl
  subst hs
  have key : cc.rounds = 1 ∧ RoundC net s s1 tr cc p := by
    unfold refineStepC at e
    rw [UQ.front_spec hq, ok_bind] at e
    obtain ⟨⟨c1, s2⟩, q1, e⟩ := bind_ok e
    obtain ⟨r0, r⟩ := RoundC.choice ok rm hfuel hp fuel Rv.A.I (Rv.po St) (Rv.A.act p hp hact) (hce p hp) T q1
    obtain ⟨p', -, e⟩ := bind_ok e
    obtain ⟨b, -, e⟩ := bind_ok e
    have fin : ∀ s3 : Flow K, s3.nodes = s2.nodes → s3.fa = s2.fa → s3.currentEdge = s2.currentEdge → s3.scaling = s2.scaling →
        (⟨1, 0, 0, 0, 0⟩ + c1 : Cost).rounds = 1 ∧ RoundC net s s3 tr (⟨1, 0, 0, 0, 0⟩ + c1) p := by
      intro s3 g1 g2 g3 g4
      have hnr : nr s3 = nr s2 := by unfold nr; rw [g1, g2]
      have hphi : ∀ t, phi s3 t = phi s2 t := fun t => by unfold phi; rw [hnr, g1, g2]
      refine ⟨by simp [r0], ⟨by rw [g1]; exact r.size, ?_, ?_, ?_, by rw [g3]; exact r.oth, by rw [g3]; exact r.le, by rw [hnr]; simpa using r.ev⟩⟩
      · rw [hnr]; simpa using r.walk
      · obtain ⟨tr', m1, m2⟩ := r.main
        refine ⟨tr', by rw [g1, g2]; exact m1, ?_⟩
        rw [hphi]; simpa using m2
      · rw [g3, g4]; simpa using r.it
    split at e
    · obtain ⟨uq, -, e⟩ := bind_ok e
      cases e
      exact fin _ rfl rfl rfl rfl
    · cases e
      exact fin _ rfl rfl rfl rfl
  obtain ⟨r0, r⟩ := key
  obtain ⟨tr', m1, m2⟩ := r.main
  refine ⟨f1, w1, τ1, k1, tr', e2, e3, r0, r.size, m1, ?_, ?_, ?_, ?_, ?_⟩
  · intro v hv
    by_cases hvp : v = p
    · subst hvp; exact r.le
    · rw [r.oth v hvp]; exact hce v hv
  · have := r.walk
    simp only [Cost.add_walk, Cost.add_rounds, r0]
    push_cast
    linarith
  · simp only [Cost.add_steps, Cost.add_rounds, r0]
    push_cast
    linarith
  · have h1 := sum_upd hp (a := s1.currentEdge.get) (b := s.currentEdge.get) fun v hv _ => r.oth v hv
    have hk : ∀ v, v ≤ net.n → h * (k1 v : Int) = h * k v + (s1.scaling.get v - s.scaling.get v) := by
      intro v hv
      have h2 := e2.sc v hv
      have h3 := Rv.sc v hv
      omega
    have hcan : ∀ {a b : Nat}, h * (a : Int) = h * (b : Int) → a = b := by
      intro a b hab
      have := Int.eq_of_mul_eq_mul_left (by omega : h ≠ 0) hab
      omega
    have h2 := sum_upd hp (a := fun v => 2 * (net.out v).length * k1 v) (b := fun v => 2 * (net.out v).length * k v) (fun v hv hvn => by
      have h3 := hk v hvn
      have h4 : s1.scaling.get v = s.scaling.get v := by
        rcases r.it with ⟨i1, -⟩ | ⟨i1, -⟩
        · rw [i1]
        · rw [i1, Vec.set_get, if_neg hv]
      rw [h4] at h3
      have := hcan (a := k1 v) (b := k v) (by omega)
      simp only [this])
    simp only [Cost.add_iters, Cost.add_rounds, r0, cesum, relsum]
    rcases r.it with ⟨i1, i2⟩ | ⟨i1, i2, i3⟩
    · have h3 := hk p hp
      rw [i1] at h3
      have := hcan (a := k1 p) (b := k p) (by omega)
      rw [this] at h2
      omega
    · have h3 := hk p hp
      rw [i1, Vec.set_get, if_pos rfl, Rv.ep] at h3
      have := hcan (a := k1 p) (b := k p + 1) (by push_cast; rw [Int.mul_add]; omega)
      rw [this, Nat.mul_add] at h2
      omega
  · have := r.ev
    simp only [Cost.add_evals, Cost.add_iters, Cost.add_rounds, r0]
    omega

theorem RInv.loopC (ok : net.OK) (rm : Room E ed net C) {imax c f0 p0 B fuel} (hfuel : net.n + 2 ≤ fuel)
    (hfuel2 : net.E + 1 ≤ fuel) (St : Start net imax h c f0 p0 B) : ∀ (fl : Nat) {s s' : Flow K} {f w : Nat → K} {τ k : Nat → Nat} {tr : Nat → T}
    {c0 c1 : Cost}, RInv E C net h c p0 B s f w τ k → LCT.SInv s.nodes s.fa.get tr → CE net s →
    whileLoop (fun cs : Cost × Flow K => .ok (!cs.2.uq.empty))
      (fun cs => do let (c, s) ← refineStepC imax fuel cs.2; .ok (cs.1 + c, s)) fl (c0, s) = .ok (c1, s') →
    ∃ f' w' τ' k' tr', RInv E C net h c p0 B s' f' w' τ' k' ∧ c1.rounds + measR net B s' f' k' ≤ c0.rounds + measR net B s f k ∧
      Acc net c0 s tr k c1 s' tr' k' := by
  intro fl
  induction fl with
  | zero => intro s s' f w τ k tr c0 c1 _ _ _ e; cases e
  | succ fl ih =>
    intro s s' f w τ k tr c0 c1 Rv T hce e
    unfold whileLoop at e
    rw [ok_bind] at e
    cases hq : s.uq.queue with
    | nil =>
      rw [if_neg (by simp [UQ.empty, hq])] at e
      cases e
      exact ⟨f, w, τ, k, tr, Rv, le_rfl, rfl, T, hce, le_rfl, le_rfl, le_rfl, le_rfl⟩
    | cons p xs =>
      rw [if_pos (by simp [UQ.empty, hq])] at e
      obtain ⟨cs, e1, e⟩ := bind_ok e
      obtain ⟨⟨c2, s2⟩, e2, e1⟩ := bind_ok e1
      cases e1
      obtain ⟨f2, w2, τ2, k2, tr2, a1, a2, a3, a4⟩ := Rv.stepC ok rm hfuel hfuel2 St hq T hce c0 e2
      obtain ⟨f3, w3, τ3, k3, tr3, b1, b2, b3⟩ := ih a1 a4.I a4.ce e
      refine ⟨f3, w3, τ3, k3, tr3, b1, ?_, a4.trans b3⟩
      simp only [Cost.add_rounds, a3] at b2
      omega

end Flow

namespace Flow
variable {D : Type} [Zero D] [One D] [Add D] [Sub D] [Neg D] [BEq D] [LT D] [LE D] [DecidableLT D] [DecidableLE D]
variable {s s' : Flow D} {tr : Nat → T} {imax : Int} {fuel p : Nat} {c : Cost}

theorem Spend.cutIfLinked {i : Nat} (I : LCT.SInv s.nodes s.fa.get tr) (e : cutIfLinkedC imax fuel s i = .ok (c, s')) :
    Spend s s' tr c 0 0 1 0 := by
  have key : ∀ {c1 : Cost}, Spend s s' tr c1 0 0 0 0 → Spend s s' tr (⟨0, 0, 0, 1, 0⟩ + c1) 0 0 1 0 := by
    intro c1 h
    obtain ⟨h1, h2, h3, h4, h5, h6, h7, h8, h9, h10⟩ := h
    exact ⟨h1, h2, h3, h4, by simp [h5], by simp [h6], h7, by simpa using h8, by simpa using h9,
      by rw [Cost.add_evals]; show 0 + _ + _ ≤ _; omega⟩
  unfold cutIfLinkedC at e
  obtain ⟨f, -, e⟩ := bind_ok e
  split at e
  · obtain ⟨⟨c1, s1⟩, e1, e⟩ := bind_ok e
    cases e
    exact key ((Spend.cut I e1).weaken (by norm_num) (by norm_num))
  · cases e
    exact key (.refl I)

theorem Spend.cutAll : ∀ (cnt i : Nat) {s : Flow D} {tr : Nat → T} {c0 c1 : Cost}, LCT.SInv s.nodes s.fa.get tr →
    forRange (fun (cs : Cost × Flow D) i => do let (c, s) ← cutIfLinkedC imax fuel cs.2 i; .ok (cs.1 + c, s)) i cnt (c0, s) = .ok (c1, s') →
    ∃ c, c1 = c0 + c ∧ Spend s s' tr c 0 0 cnt 0 := by
  intro cnt
  induction cnt with
  | zero =>
    intro i s tr c0 c1 I e
    cases e
    exact ⟨0, by cases c0; rfl, .refl I⟩
  | succ cnt ih =>
    intro i s tr c0 c1 I e
    unfold forRange at e
    obtain ⟨cs, e1, e⟩ := bind_ok e
    obtain ⟨⟨c2, s2⟩, e2, e1⟩ := bind_ok e1
    cases e1
    have h1 := Spend.cutIfLinked I e2
    obtain ⟨tr2, m1, -⟩ := h1.main
    obtain ⟨c3, rfl, -⟩ := ih (i + 1) m1 e
    refine ⟨c2 + c3, ?_, ?_⟩
    · show Cost.mk _ _ _ _ _ = Cost.mk _ _ _ _ _
      simp only [Cost.mk.injEq, Cost.add_rounds, Cost.add_steps, Cost.add_walk, Cost.add_iters, Cost.add_evals]
      omega
    · have := h1.trans (c2 := c3) (a2 := 0) (w2 := 0) (i2 := cnt) (l2 := 0) (s2 := s') fun tr1 I1 => by
        obtain ⟨c4, h4, h5⟩ := ih (i + 1) I1 e
        have : c3 = c4 := by
          have g1 := congrArg Cost.rounds h4
          have g2 := congrArg Cost.steps h4
          have g3 := congrArg Cost.walk h4
          have g4 := congrArg Cost.iters h4
          have g5 := congrArg Cost.evals h4
          simp only [Cost.add_rounds, Cost.add_steps, Cost.add_walk, Cost.add_iters, Cost.add_evals] at g1 g2 g3 g4 g5
          cases c3; cases c4
          simp only [Cost.mk.injEq] at *
          omega
        rw [this]; exact h5
      rw [show cnt + 1 = 1 + cnt by omega]
      simpa using this

theorem forRange_inv {σ : Type} {body : σ → Nat → Res σ} {P : σ → Prop} (hb : ∀ a i b, P a → body a i = .ok b → P b) :
    ∀ (cnt i : Nat) {a b : σ}, P a → forRange body i cnt a = .ok b → P b := by
  intro cnt
  induction cnt with
  | zero => intro i a b h e; cases e; exact h
  | succ cnt ih =>
    intro i a b h e
    unfold forRange at e
    obtain ⟨a1, e1, e⟩ := bind_ok e
    exact ih (i + 1) (hb _ _ _ h e1) e

theorem pushEdge_same {i : Nat} (e : pushEdge imax s i = .ok s') : s'.nodes = s.nodes ∧ s'.fa = s.fa ∧ s'.currentEdge = s.currentEdge ∧
    s'.n = s.n ∧ s'.edges = s.edges := by
  unfold pushEdge at e
  obtain ⟨_, -, e⟩ := bind_ok e
  obtain ⟨_, -, e⟩ := bind_ok e
  split at e
  · obtain ⟨_, -, e⟩ := bind_ok e
    obtain ⟨_, -, e⟩ := bind_ok e
    obtain ⟨_, -, e⟩ := bind_ok e
    obtain ⟨_, -, e⟩ := bind_ok e
    unfold addFlowOfEdge at e
    obtain ⟨_, -, e⟩ := bind_ok e
    obtain ⟨_, -, e⟩ := bind_ok e
    obtain ⟨_, -, e⟩ := bind_ok e
    obtain ⟨_, -, e⟩ := bind_ok e
    cases e
    exact ⟨rfl, rfl, rfl, rfl, rfl⟩
  · cases e
    exact ⟨rfl, rfl, rfl, rfl, rfl⟩

theorem pushAll_same (e : pushAllAdmissibleEdge imax s = .ok s') : s'.nodes = s.nodes ∧ s'.fa = s.fa ∧ s'.currentEdge = s.currentEdge := by
  unfold pushAllAdmissibleEdge at e
  obtain ⟨s1, e1, e⟩ := bind_ok e
  have h1 := forRange_inv (P := fun t : Flow D => t.nodes = s.nodes ∧ t.fa = s.fa ∧ t.currentEdge = s.currentEdge)
    (fun a i b h e => by obtain ⟨g1, g2, g3, -⟩ := pushEdge_same e; rw [g1, g2, g3]; exact h) _ _ ⟨rfl, rfl, rfl⟩ e1
  exact forRange_inv (P := fun t : Flow D => t.nodes = s.nodes ∧ t.fa = s.fa ∧ t.currentEdge = s.currentEdge)
    (fun a i b h e => by obtain ⟨g1, g2, g3, -⟩ := enqueueActive_same e; rw [g1, g2, g3]; exact h) _ _ h1 e

theorem pushEdgesC_cost : ∀ (cnt i : Nat) {s : Flow D} {c0 c1 : Cost},
    forRange (fun (cs : Cost × Flow D) i => do let (c, s) ← pushEdgeC imax cs.2 i; .ok (cs.1 + c, s)) i cnt (c0, s) = .ok (c1, s') →
    c1.rounds = c0.rounds ∧ c1.steps = c0.steps ∧ c1.walk = c0.walk ∧ c1.iters = c0.iters + cnt ∧ c1.evals ≤ c0.evals + 2 * cnt ∧ s'.n = s.n := by
  intro cnt
  induction cnt with
  | zero => intro i s c0 c1 e; cases e; exact ⟨rfl, rfl, rfl, rfl, le_rfl, rfl⟩
  | succ cnt ih =>
    intro i s c0 c1 e
    unfold forRange at e
    obtain ⟨cs, e1, e⟩ := bind_ok e
    obtain ⟨⟨c2, s2⟩, e2, e1⟩ := bind_ok e1
    cases e1
    obtain ⟨h1, h2, h3, h4, h5, h6⟩ := ih (i + 1) e
    have key : ∃ v, v ≤ 2 ∧ c2 = ⟨0, 0, 0, 1, v⟩ := by
      unfold pushEdgeC at e2
      obtain ⟨_, -, e2⟩ := bind_ok e2
      obtain ⟨⟨v, x⟩, q1, e2⟩ := bind_ok e2
      refine ⟨v, qC_le q1, ?_⟩
      dsimp only at e2
      split at e2
      · obtain ⟨_, -, e2⟩ := bind_ok e2
        obtain ⟨_, -, e2⟩ := bind_ok e2
        obtain ⟨_, -, e2⟩ := bind_ok e2
        obtain ⟨_, -, e2⟩ := bind_ok e2
        obtain ⟨_, -, e2⟩ := bind_ok e2
        cases e2; rfl
      · cases e2; rfl
    obtain ⟨v, hv, rfl⟩ := key
    obtain ⟨-, -, -, g4, -⟩ := pushEdge_same ((pushEdgeC_er _ _ _).to_ok e2)
    simp only [Cost.add_rounds, Cost.add_steps, Cost.add_walk, Cost.add_iters, Cost.add_evals] at h1 h2 h3 h4 h5
    exact ⟨h1, h2, h3, by omega, by omega, h6.trans g4⟩

theorem pushAllC_cost (e : pushAllAdmissibleEdgeC imax s = .ok (c, s')) :
    c.rounds = 0 ∧ c.steps = 0 ∧ c.walk = 0 ∧ c.iters = s.edges.size + (s.n + 1) ∧ c.evals ≤ 2 * s.edges.size := by
  unfold pushAllAdmissibleEdgeC at e
  obtain ⟨⟨c1, s1⟩, e1, e⟩ := bind_ok e
  obtain ⟨s2, -, e⟩ := bind_ok e
  cases e
  obtain ⟨h1, h2, h3, h4, h5, h6⟩ := pushEdgesC_cost _ _ e1
  simp only [Cost.add_rounds, Cost.add_steps, Cost.add_walk, Cost.add_iters, Cost.add_evals]
  rw [h1, h2, h3, h4, h6]
  exact ⟨rfl, rfl, rfl, by simp, by simpa using h5⟩

end Flow

namespace Flow
variable {K : Type} [Field K] [LinearOrder K] [IsStrictOrderedRing K]
variable {net : Net K} {h : Int} {s s' : Flow K} {tr : Nat → T} {imax : Int} {fuel : Nat} {C : K}

theorem PInv.phaseC (ok : net.OK) {ed : Vec (OmegaLimit K)} (rm : Room (FEmb.id K) ed net (C - net.E * net.M)) {imax c B fuel} (P : PInv (FEmb.id K) C net c s)
    (hep : s.epsilon.tdiv 2 = h)
    (St : Start net imax h c s.flows.get s.scaling.get B) (hfuel : phaseFuel net B ≤ fuel) (T : LCT.SInv s.nodes s.fa.get tr) {cc : Cost}
    (e : phaseC imax fuel s = .ok (cc, s')) :
    cc.rounds < phaseFuel net B ∧ cc.iters ≤ cc.rounds + 2 * net.E + 2 * net.E * B + 3 * (net.n + 1) ∧ s'.nodes.size = s.nodes.size ∧
      cc.evals + 2 * nr s' ≤ 2 * nr s + 2 * cc.iters + 4 * cc.rounds ∧
      (cc.walk : ℝ) + s.nodes.size * nr s' ≤ s.nodes.size * nr s + 3 * s.nodes.size * cc.rounds ∧
      ∃ tr', LCT.SInv s'.nodes s'.fa.get tr' ∧ (cc.steps : ℝ) + phi s' tr' ≤ phi s tr + 9 * opA s.nodes.size * cc.rounds := by
  obtain ⟨s2, f, w, a1, Rv, -⟩ := P.begin ok rm hep St
  obtain ⟨g1, g2⟩ := phaseFuel_ge (net := net) B
  unfold Flow.phaseC at e
  dsimp only at e
  obtain ⟨⟨c0, s20⟩, e0, e⟩ := bind_ok e
  have e00 := (pushAllC_er _ _).to_ok e0
  rw [a1] at e00
  cases e00
  obtain ⟨z1, z2, z3, z4, z5⟩ := pushAllC_cost e0
  have z4 : c0.iters = s.edges.size + (s.n + 1) := z4
  have z5 : c0.evals ≤ 2 * s.edges.size := z5
  obtain ⟨⟨c1, s3⟩, e1, e⟩ := bind_ok e
  cases e
  obtain ⟨n1, n2, n3⟩ := pushAll_same a1
  have n1 : s2.nodes = s.nodes := n1
  have n2 : s2.fa = s.fa := n2
  have n3 : s2.currentEdge = Vec.replicate s.currentEdge.size 0 := n3
  have hce0 : ∀ v, s2.currentEdge.get v = 0 := fun v => by rw [n3]; rfl
  unfold refineC at e1
  obtain ⟨⟨c2, s4⟩, e2, e1⟩ := bind_ok e1
  obtain ⟨f', w', τ', k', tr', R', hm, A⟩ := Rv.loopC ok rm (by omega) (by omega) St fuel
    (by rw [n1, n2]; exact T) (fun v _ => by rw [hce0]; exact Nat.zero_le _) e2
  obtain ⟨c3, rfl, Sp⟩ := Spend.cutAll _ _ A.I e1
  have hn4 : s4.n = net.n := R'.A.I.st.n
  have hsn : s.n = net.n := P.st.n
  have hse : s.edges.size = net.E := P.st.esz
  have hnr : nr s2 = nr s := by unfold nr; rw [n1, n2]
  have hphi : ∀ t, phi s2 t = phi s t := fun t => by unfold phi; rw [hnr, n1, n2]
  have hr3 := Sp.ro
  have hml := measR_lt (net := net) (B := B) (s := s2) (f := f) (fun _ => 0)
  have hce4 : cesum net s4 ≤ net.E := (Finset.sum_le_sum fun v hv => A.ce v (by simp at hv; omega)).trans (sum_out_le net)
  have hk4 : relsum net k' ≤ 2 * net.E * B := by
    refine (Finset.sum_le_sum (g := fun v => 2 * B * (net.out v).length) fun v hv => ?_).trans ?_
    · have := Nat.mul_le_mul_left (2 * (net.out v).length) (R'.kB v (by simp at hv; omega))
      calc _ ≤ _ := this
        _ = _ := by ring
    · rw [← Finset.mul_sum]
      calc _ ≤ 2 * B * net.E := Nat.mul_le_mul_left _ (sum_out_le net)
        _ = _ := by ring
  have hk0 : relsum net (fun _ => 0) = 0 := by simp [relsum]
  have hce2 : cesum net s2 = 0 := by simp [cesum, hce0]
  have hw := A.walk; have hs := A.steps; have hi := A.iters
  rw [n1] at hw hs
  rw [hnr] at hw
  rw [hphi] at hs
  have hsz : s4.nodes.size = s.nodes.size := A.size.trans (by rw [n1])
  have hw' := Sp.walk
  obtain ⟨tr4, m1, m2⟩ := Sp.main
  rw [hsz] at hw' m2
  refine ⟨?_, ?_, Sp.size.trans hsz, ?_, ?_, tr4, m1, ?_⟩
  · simp only [Cost.add_rounds, Cost.zero_rounds] at hm ⊢
    have : phaseFuel net B = roundFuel net.n net.E B := rfl
    omega
  · simp only [Cost.add_rounds, Cost.add_iters, Cost.zero_rounds, Cost.zero_iters] at hi ⊢
    show (initialization s).n + 1 + c0.iters + _ ≤ _
    have : (initialization s).n = net.n := hsn
    rw [Sp.it, hn4, z4, hsn, hse, this]
    omega
  · have he := A.ev
    have he' := Sp.ev
    rw [hnr] at he
    simp only [Cost.add_rounds, Cost.add_evals, Cost.add_iters, Cost.zero_rounds, Cost.zero_evals, Cost.zero_iters, z1, z4, Sp.it] at he ⊢
    rw [hn4] at he' ⊢
    show _ + 2 * nr s3 ≤ _
    omega
  · simp only [Cost.add_rounds, Cost.add_walk, Cost.zero_rounds, Cost.zero_walk, hr3, z1, z3] at hw ⊢
    show _ + _ * ((nr s3 : Nat) : ℝ) ≤ _
    push_cast at hw ⊢
    linarith
  · simp only [Cost.add_rounds, Cost.add_steps, Cost.zero_rounds, Cost.zero_steps, hr3, z1, z2] at hs ⊢
    show _ + phi s3 tr4 ≤ _
    push_cast at hs ⊢
    linarith

theorem whileLoop_of_iterN {α : Type} {cond : α → Res Bool} {body : α → Res α} {b : α} : ∀ (P fuel : Nat) (a : α), P < fuel →
    iterN body P a = .ok b → cond b = .ok false → (∀ k, k < P → ∀ x, iterN body k a = .ok x → cond x = .ok true) →
    whileLoop cond body fuel a = .ok b := by
  intro P
  induction P with
  | zero =>
    intro fuel a hf h1 h2 _
    cases h1
    cases fuel with
    | zero => omega
    | succ fuel => simp [whileLoop, h2, ok_bind]
  | succ P ih =>
    intro fuel a hf h1 h2 h3
    cases fuel with
    | zero => omega
    | succ fuel =>
      rw [iterN_succ'] at h1
      obtain ⟨a1, e1, e2⟩ := bind_ok h1
      unfold whileLoop
      rw [h3 0 (by omega) a rfl, ok_bind, if_pos rfl, e1, ok_bind]
      exact ih fuel a1 (by omega) e2 h2 fun k hk x hx => h3 (k + 1) (by omega) x (by rw [iterN_succ', e1, ok_bind, hx])

/-- body of the loop of `phasesC` -/
def phaseStepC (imax : Int) (fuel : Nat) (cs : Cost × Flow K) : Res (Cost × Flow K) := do
  let (c, s) ← Flow.phaseC imax fuel cs.2
  .ok (cs.1 + c, s)

variable {n : Nat} {M : K} {U B : Int} {limits : List (OmegaLimit K)} {ps : List (Pair K)}

theorem mk'_init {fuel : Nat} {M : K} (e : Flow.mk' imax fuel n M U limits = .ok s) :
    s.nodes = Vec.replicate (n + 1) LCT.initNode ∧ s.fa = Vec.replicate (n + 1) none := by
  unfold Flow.mk' at e
  obtain ⟨_, -, e⟩ := bind_ok e
  obtain ⟨_, -, e⟩ := bind_ok e
  split at e
  · split at e
    · obtain ⟨_, -, e⟩ := bind_ok e
      obtain ⟨_, -, e⟩ := bind_ok e
      cases e
      exact ⟨rfl, rfl⟩
    · cases e
  · cases e

theorem NetInput.time {W : Int} (I : NetInput imax n M U W limits ps) {fuel : Nat}
    (hf : minFuel n limits.length U W (2 * ((n : Int) + 1) * W) ≤ fuel) :
    ∃ s B c s', Flow.mk' imax fuel n M U limits = .ok s ∧ B = firstB n (2 * ((n : Int) + 1) * W) (2 ^ (epsExp n U - 1)) ∧
      Flow.phasesC imax fuel s = .ok (c, s') ∧ Flow.phases imax fuel s = .ok s' ∧
      c.rounds + epsExp n U ≤ ∑ k ∈ Finset.range (epsExp n U), roundFuel n (2 * limits.length) (relabels n B k) ∧
      c.iters ≤ c.rounds + ∑ k ∈ Finset.range (epsExp n U), (4 * limits.length + 4 * limits.length * relabels n B k + 3 * (n + 1)) ∧
      c.walk ≤ 3 * (n + 1) * c.rounds ∧ (c.steps : ℝ) ≤ 9 * opA (n + 1) * c.rounds ∧ c.evals ≤ 2 * c.iters + 4 * c.rounds ∧
      Static (inputNet n M limits ps) s' := by
  obtain ⟨s, B, e1, e2, e3, e4, e5⟩ := NetInput.phases I hf
  have hok := inputNet_ok I
  have hft : epsExp n U < fuel := by unfold minFuel at hf; omega
  obtain ⟨i1, i2⟩ := mk'_init e1
  have hsz : s.nodes.size = n + 1 := by rw [i1]; rfl
  have T0 : LCT.SInv s.nodes s.fa.get (fun v => T.node .nil v .nil) := by rw [i1, i2]; exact LCT.sinv_init (n + 1)
  have hnr0 : nr s = 0 := by unfold nr; rw [i2]; simp [Vec.replicate]
  have hphi0 : phi s (fun v => T.node .nil v .nil) = 0 := by
    unfold phi
    rw [hnr0, hsz, i2]
    have := LCT.pot_init (n + 1)
    unfold pot6
    simp only [Vec.replicate]
    rw [this]; simp
  have key : ∀ j, j ≤ epsExp n U → ∃ c s' tr', iterN (phaseStepC imax fuel) j (0, s) = .ok (c, s') ∧ iterN (Flow.phase imax fuel) j s = .ok s' ∧
      LCT.SInv s'.nodes s'.fa.get tr' ∧ s'.nodes.size = n + 1 ∧
      c.rounds + j ≤ ∑ k ∈ Finset.range j, roundFuel n (2 * limits.length) (relabels n B k) ∧
      c.iters ≤ c.rounds + ∑ k ∈ Finset.range j, (4 * limits.length + 4 * limits.length * relabels n B k + 3 * (n + 1)) ∧
      (c.walk : ℝ) + (n + 1 : Nat) * nr s' ≤ 3 * (n + 1 : Nat) * c.rounds ∧ (c.steps : ℝ) + phi s' tr' ≤ 9 * opA (n + 1) * c.rounds ∧
      c.evals + 2 * nr s' ≤ 2 * c.iters + 4 * c.rounds := by
    intro j
    induction j with
    | zero =>
      intro _
      exact ⟨0, s, _, rfl, rfl, T0, hsz, by simp, by simp, by simp [hnr0], by simp [hphi0], by simp [hnr0]⟩
    | succ j ih =>
      intro hj
      obtain ⟨c, s1, tr1, a1, a2, a3, a4, a5, a6, a7, a8, a9⟩ := ih (by omega)
      obtain ⟨s1', b1, ⟨C, hC, P⟩, b3, b4⟩ := e5 j (by omega)
      have : s1' = s1 := by rw [a2] at b1; cases b1; rfl
      subst this
      obtain ⟨St, hph⟩ := b4 (by omega)
      have h2 : (2 : Int) ^ (epsExp n U - j) = 2 * 2 ^ (epsExp n U - 1 - j) := by
        rw [show epsExp n U - j = (epsExp n U - 1 - j) + 1 by omega, pow_succ]; ring
      have hdiv : s1'.epsilon.tdiv 2 = 2 ^ (epsExp n U - 1 - j) := by
        rw [b3, h2, Int.mul_tdiv_cancel_left _ (by norm_num)]
      obtain ⟨ed, rm⟩ := room_id (net := inputNet n M limits ps)
        (C := C - (inputNet n M limits ps).E * (inputNet n M limits ps).M) I.M_nonneg (by linarith)
      obtain ⟨s2, d1, -⟩ := e5 (j + 1) hj
      have d2 : Flow.phase imax fuel s1' = .ok s2 := by rw [iterN, a2, ok_bind] at d1; exact d1
      obtain ⟨cc, d3⟩ := (phaseC_er imax fuel s1').of_ok d2
      obtain ⟨r1, r2, r3, r7, r4, tr2, r5, r6⟩ := P.phaseC hok rm hdiv St hph a3 d3
      rw [a4] at r4 r6
      refine ⟨c + cc, s2, tr2, ?_, d1, r5, r3.trans a4, ?_, ?_, ?_, ?_, ?_⟩
      · rw [iterN, a1, ok_bind]
        unfold phaseStepC
        rw [d3, ok_bind]
      · rw [Finset.sum_range_succ, Cost.add_rounds]
        have : phaseFuel (inputNet n M limits ps) (relabels n B j) = roundFuel n (2 * limits.length) (relabels n B j) := rfl
        omega
      · rw [Finset.sum_range_succ, Cost.add_rounds, Cost.add_iters]
        have hE : (inputNet n M limits ps).E = 2 * limits.length := rfl
        have hn : (inputNet n M limits ps).n = n := rfl
        rw [hE, hn, show 2 * (2 * limits.length) = 4 * limits.length by ring] at r2
        omega
      · rw [Cost.add_rounds, Cost.add_walk]
        push_cast at a7 r4 ⊢
        linarith
      · rw [Cost.add_rounds, Cost.add_steps]
        push_cast
        linarith
      · rw [Cost.add_rounds, Cost.add_iters, Cost.add_evals]
        omega
  obtain ⟨c, s', tr', a1, a2, a3, a4, a5, a6, a7, a8, a9⟩ := key _ le_rfl
  obtain ⟨s'', b1, ⟨_, -, hP⟩, b3, -⟩ := e5 _ le_rfl
  have : s'' = s' := by rw [a2] at b1; cases b1; rfl
  subst this
  have hC : Flow.phasesC imax fuel s = .ok (c, s'') := by
    refine whileLoop_of_iterN (epsExp n U) fuel _ hft a1 (by simp [b3]) fun k hk x hx => ?_
    obtain ⟨c1, s1, tr1, a1, a2, -⟩ := key k hk.le
    obtain ⟨s1', b1, -, b3, -⟩ := e5 k hk.le
    have : s1' = s1 := by rw [a2] at b1; cases b1; rfl
    subst this
    have : x = (c1, s1') := by
      have h1 : iterN (phaseStepC imax fuel) k (0, s) = .ok x := hx
      rw [a1] at h1; cases h1; rfl
    subst this
    have : (2 : Int) ≤ 2 ^ (epsExp n U - k) := by
      calc (2 : Int) = 2 ^ 1 := by norm_num
        _ ≤ _ := pow_le_pow_right₀ (by norm_num) (by omega)
    simp only [b3, ge_iff_le, this, decide_true]
  refine ⟨s, B, c, s'', e1, e3, hC, (phasesC_er imax fuel s).to_ok hC, a5, a6, ?_, ?_, by omega, hP.st⟩
  · have h1 : (0 : ℝ) ≤ (n + 1 : Nat) * nr s'' := by positivity
    have h2 : (c.walk : ℝ) ≤ 3 * (n + 1 : Nat) * c.rounds := by linarith
    exact_mod_cast h2
  · have h1 : 0 ≤ phi s'' tr' := by
      unfold phi
      have h2 := opA_nonneg s''.nodes.size
      have h3 : 0 ≤ pot6 s''.nodes.size s''.fa.get tr' := by
        unfold pot6
        have := a3.pot_nonneg
        linarith
      positivity
    linarith

end Flow
end AHO
