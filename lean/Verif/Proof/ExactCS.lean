import Verif.Proof.ExactInput
import Verif.Proof.CSMin
import Mathlib.Algebra.Group.Submonoid.BigOperators
/-!
# `CostScaling::Refine` in floating-point arithmetic
-/

namespace AHO
open Format

theorem Flt.dmin_ofRat {f : Format} {a b : ℚ} : dmin (Flt.ofRat f a) (Flt.ofRat f b) = Flt.ofRat f (dmin a b) := by
  unfold dmin
  by_cases h : b < a
  · rw [if_pos h, if_pos (Flt.lt_ofRat.2 h)]
  · rw [if_neg h, if_neg (fun h' => h (Flt.lt_ofRat.1 h'))]

namespace CS
open CostScaling

set_option linter.unusedSectionVars false
variable {f : Format}

/-- the edge with a floating-point capacity -/
def arcE (f : Format) (a : CArc ℚ) : CArc (Flt f) := ⟨a.next, a.v, a.cost, Flt.ofRat f a.capacity⟩

/-- the object with floating-point members -/
def csE (f : Format) (s : CostScaling ℚ) : CostScaling (Flt f) :=
  ⟨s.N, Flt.ofRat f s.epsilon, s.p.map (Flt.ofRat f), s.head, s.edge.map (arcE f), s.len, Flt.ofRat f s.total_cost⟩

/-- the same for the state inside `Refine` -/
def rfE (f : Format) (s : Refining ℚ) : Refining (Flt f) :=
  { csE f s.toCostScaling with
    excess := s.excess.map (Flt.ofRat f), incp := s.incp.map (Flt.ofRat f), current_edge := s.current_edge, vis := s.vis, st := s.st }

/-- What is needed for a phase to be exact. -/
structure Bnd (f : Format) (net : Net) (Uc Up : AddSubgroup ℚ) (cS pS : Nat → ℚ) (h : ℚ) : Prop where
  capS : ∀ e, e < net.E → cS e ∈ Uc
  capS0 : ∀ e, e < net.E → 0 ≤ cS e
  exC : ∀ x ∈ Uc, |x| ≤ ∑ e ∈ Finset.range net.E, (cS e + cS (e ^^^ 1)) → Exact f x
  hpos : 0 < h
  hU : h ∈ Up
  one : (1 : ℚ) ∈ Up
  potS : ∀ v, v < net.N → pS v ∈ Up
  exP : ∀ x ∈ Up, ∀ u v e, u < net.N → v < net.N → e < net.E →
    |x| ≤ |(net.cst e : ℚ)| + (|pS u| + (6 * net.N + 1) * h) + (|pS v| + (6 * net.N + 1) * h) → Exact f x
  exQ : ∀ x ∈ Up, ∀ v, v < net.N → |x| ≤ |pS v| + (6 * net.N + 1) * h → Exact f x
  exN : ∀ x ∈ Up, |x| ≤ 3 ∨ |x| ≤ net.N → Exact f x

/-- The part of the invariant of `Refine` which bounds the numbers. -/
structure Weak (net : Net) (Uc : AddSubgroup ℚ) (cS pS : Nat → ℚ) (h t : ℚ) (s : Refining ℚ) : Prop extends RStatic net s where
  eps : s.epsilon = 2 * h
  tc : s.total_cost = t
  nonneg : ∀ e, e < net.E → 0 ≤ cap s.toCostScaling e
  anti : ∀ e, e < net.E → cap s.toCostScaling (e ^^^ 1) - cS (e ^^^ 1) = -(cap s.toCostScaling e - cS e)
  ex : ∀ v, v < net.N → s.excess.get v = gain net (fun e => cap s.toCostScaling e - cS e) v
  capU : ∀ e, e < net.E → cap s.toCostScaling e ∈ Uc
  pot : ∃ k : Nat → Nat, ∀ v, v < net.N → s.p.get v = pS v + k v * h ∧ s.incp.get v = k v * h ∧ k v ≤ 6 * net.N + 1
  cur : ∀ w, w < net.N → ∃ L, Chain net.nxt (s.current_edge.get w) L ∧ ∀ e ∈ L, e < net.E ∧ net.src e = w

variable {net : Net} {Uc Up : AddSubgroup ℚ} {cS pS : Nat → ℚ} {h t : ℚ} {s s' : Refining ℚ}

section bounds
variable (ok : net.OK) (b : Bnd f net Uc Up cS pS h) (W : Weak net Uc cS pS h t s)
include ok b W

theorem Weak.cap_le {e : Nat} (he : e < net.E) : cap s.toCostScaling e ≤ cS e + cS (e ^^^ 1) := by
  have h1 := W.anti e he
  have h2 := W.nonneg _ (ok.x_lt e he)
  linarith

theorem Weak.exact_cap {e : Nat} (he : e < net.E) : Exact f (cap s.toCostScaling e) := by
  refine b.exC _ (W.capU e he) ?_
  rw [abs_of_nonneg (W.nonneg e he)]
  refine (W.cap_le ok b he).trans ?_
  refine Finset.single_le_sum (f := fun e => cS e + cS (e ^^^ 1)) (fun i hi => ?_) (Finset.mem_range.2 he)
  have hi := Finset.mem_range.1 hi
  exact add_nonneg (b.capS0 i hi) (b.capS0 _ (ok.x_lt i hi))

theorem Weak.exact_excess {v : Nat} (hv : v < net.N) : Exact f (s.excess.get v) := by
  rw [W.ex v hv]
  have hlt : ∀ {e}, e ∈ (Finset.range net.E).filter (fun e => net.src e = v) → e < net.E := fun he =>
    Finset.mem_range.1 (Finset.mem_filter.1 he).1
  refine b.exC _ (sum_mem fun e he => Uc.sub_mem (W.capU e (hlt he)) (b.capS e (hlt he))) ?_
  refine (Finset.abs_sum_le_sum_abs _ _).trans ?_
  refine (Finset.sum_le_sum (g := fun e => cS e + cS (e ^^^ 1)) fun e he => ?_).trans
    (Finset.sum_le_sum_of_subset_of_nonneg (Finset.filter_subset _ _) fun i hi _ => ?_)
  · have h1 := W.cap_le ok b (hlt he)
    have h2 := W.nonneg e (hlt he)
    have h3 := b.capS0 e (hlt he)
    have h4 := b.capS0 _ (ok.x_lt e (hlt he))
    rw [abs_le]
    constructor <;> linarith
  · have hi := Finset.mem_range.1 hi
    exact add_nonneg (b.capS0 i hi) (b.capS0 _ (ok.x_lt i hi))

theorem Weak.pot_le {v : Nat} (hv : v < net.N) : |s.p.get v| ≤ |pS v| + (6 * net.N + 1) * h := by
  obtain ⟨k, hk⟩ := W.pot
  obtain ⟨h1, -, h2⟩ := hk v hv
  rw [h1]
  refine (abs_add_le _ _).trans (add_le_add_right ?_ _)
  rw [abs_of_nonneg (mul_nonneg (Nat.cast_nonneg _) b.hpos.le)]
  refine mul_le_mul_of_nonneg_right ?_ b.hpos.le
  exact_mod_cast h2

theorem Weak.potU {v : Nat} (hv : v < net.N) : s.p.get v ∈ Up := by
  obtain ⟨k, hk⟩ := W.pot
  obtain ⟨h1, -, -⟩ := hk v hv
  rw [h1, ← nsmul_eq_mul]
  exact Up.add_mem (b.potS v hv) (Up.nsmul_mem b.hU _)

theorem Weak.incU {v : Nat} (hv : v < net.N) : s.incp.get v ∈ Up := by
  obtain ⟨k, hk⟩ := W.pot
  obtain ⟨-, h1, -⟩ := hk v hv
  rw [h1, ← nsmul_eq_mul]
  exact Up.nsmul_mem b.hU _

theorem Bnd.intU (k : Int) : (k : ℚ) ∈ Up := by
  have := Up.zsmul_mem b.one k
  rwa [zsmul_eq_mul, mul_one] at this

theorem Weak.costPi_sim {e : Nat} (he : e < net.E) :
    Sim (s.costPi (net.src e) (s.edge.get e)) ((rfE f s).costPi (net.src e) ((rfE f s).edge.get e)) (Flt.ofRat f) (fun w => w = rc net s.p.get e) := by
  have hs := ok.src_lt e he
  have hd := ok.dst_lt he
  have g := W.edge e he
  have q1 := W.pot_le ok b hs
  have q2 := W.pot_le ok b hd
  have u1 := W.potU ok b hs
  have u2 := W.potU ok b hd
  have u0 := Bnd.intU ok b W (net.cst e)
  have p1 : (0 : ℚ) ≤ (6 * net.N + 1) * h := mul_nonneg (by positivity) b.hpos.le
  have a1 := abs_nonneg (pS (net.src e))
  have a2 := abs_nonneg (pS (net.dst e))
  have e0 : Exact f (net.cst e : ℚ) := b.exP _ u0 _ _ e hs hd he (by linarith)
  have e1 : Exact f ((net.cst e : ℚ) - s.p.get (net.src e)) := b.exP _ (Up.sub_mem u0 u1) _ _ e hs hd he
    ((abs_sub _ _).trans (by linarith))
  have e2 : Exact f ((net.cst e : ℚ) - s.p.get (net.src e) + s.p.get (net.dst e)) := b.exP _ (Up.add_mem (Up.sub_mem u0 u1) u2) _ _ e hs hd he
    ((abs_add_le _ _).trans (by have := abs_sub (net.cst e : ℚ) (s.p.get (net.src e)); linarith))
  have hv : ((rfE f s).edge.get e).v = net.dst e := by show (s.edge.get e).v = _; rw [g]
  have hc : ((rfE f s).edge.get e).cost = net.cst e := by show (s.edge.get e).cost = _; rw [g]
  rw [costPi_ok W.toStatic ok he]
  rintro _ ⟨⟩
  refine ⟨?_, rfl⟩
  unfold costPi
  have r1 : (rfE f s).p.rd (net.src e) = .ok (Flt.ofRat f (s.p.get (net.src e))) := Vec.rd_ok (show net.src e < s.p.size by rw [W.psz]; exact hs)
  have r2 : (rfE f s).p.rd (net.dst e) = .ok (Flt.ofRat f (s.p.get (net.dst e))) := Vec.rd_ok (show net.dst e < s.p.size by rw [W.psz]; exact hd)
  rw [hv, hc, r1, ok_bind, r2, ok_bind]
  show Except.ok ((net.cst e : Flt f) - Flt.ofRat f (s.p.get (net.src e)) + Flt.ofRat f (s.p.get (net.dst e))) = _
  rw [e0.int, e1.sub, e2.add]
  rfl

omit b in
theorem Weak.moved {x : Nat} {g : ℚ} (m : Moved net s s' x g) (hx : x < net.E) (hg0 : 0 ≤ g) (hg : g ≤ cap s.toCostScaling x) (hgU : g ∈ Uc) :
    Weak net Uc cS pS h t s' := by
  refine ⟨m.st, by rw [m.eps]; exact W.eps, by rw [m.tc]; exact W.tc, fun e he => ?_, fun e he => ?_, fun v hv => ?_, fun e he => ?_, ?_, ?_⟩
  · rw [m.cap e he]; exact moved_nonneg W.nonneg hg0 hg e he
  · rw [m.cap e he, m.cap _ (ok.x_lt e he)]; exact moved_anti W.anti e he
  · rw [m.ex]
    have : gain net (fun e => cap s'.toCostScaling e - cS e) v = gain net (fun e => CS.moved (cap s.toCostScaling) x g e - cS e) v := by
      unfold gain
      refine Finset.sum_congr rfl fun e he => ?_
      show cap s'.toCostScaling e - cS e = _
      rw [m.cap e (Finset.mem_range.1 (Finset.mem_filter.1 he).1)]
    rw [this, moved_gain ok hx]
    unfold shifted
    rw [W.ex _ (ok.src_lt x hx), W.ex _ (ok.dst_lt hx), W.ex v hv]
  · rw [m.cap e he]
    unfold CS.moved
    split
    · exact Uc.sub_mem (W.capU x hx) hgU
    · split
      · exact Uc.add_mem (W.capU _ (ok.x_lt x hx)) hgU
      · exact W.capU e he
  · rw [m.p, m.incp]; exact W.pot
  · rw [m.cur]; exact W.cur

end bounds

theorem setCapacity_sim {edge : Vec (CArc ℚ)} {edge' : Vec (CArc (Flt f))} (h : edge' = edge.map (arcE f)) {i : Nat} {c : ℚ} {c' : Flt f}
    (hc : c' = Flt.ofRat f c) : Sim (setCapacity edge i c) (setCapacity edge' i c') (Vec.map (arcE f))
      (fun v' => i < edge.size ∧ v' = edge.set i { edge.get i with capacity := c }) := by
  subst h hc
  unfold setCapacity
  refine (Sim.rd rfl).bind fun a _ ha => (Sim.wr rfl rfl).mono fun v' hv => ⟨hv.1, ?_⟩
  rw [hv.2, ha.2]

section steps
variable (ok : net.OK) (b : Bnd f net Uc Up cS pS h)
include ok b

theorem saturate_sim (W : Weak net Uc cS pS h t s) {e : Nat} (he : e < net.E) :
    Sim (saturate (net.src e) e s) (saturate (net.src e) e (rfE f s)) (rfE f) (fun s' => Weak net Uc cS pS h t s' ∧ s'.st = s.st) := by
  have hs := ok.src_lt e he
  have hd := ok.dst_lt he
  have hx := ok.x_lt e he
  rcases saturate_spec (fun x => sub_self x) ok W.toRStatic he with ⟨h1, h2⟩ | ⟨h1, s1, h2, m, -, m2⟩
  · rw [h2]
    rintro _ ⟨⟩
    refine ⟨?_, W, rfl⟩
    unfold saturate
    have hr : (rfE f s).edge.rd e = .ok ((rfE f s).edge.get e) := Vec.rd_ok (show e < s.edge.size by rw [W.esz]; exact he)
    rw [hr, ok_bind, (W.costPi_sim ok b he _ (costPi_ok W.toStatic ok he)).1, ok_bind]
    exact if_neg fun hc => h1 (Flt.lt_ofRat.1 hc)
  · have W1 := W.moved ok m he (W.nonneg e he) le_rfl (W.capU e he)
    refine Sim.mono (Q := fun s' => True ∧ Weak net Uc cS pS h t s' ∧ s'.st = s.st) (Sim.and ?_ (fun a ha => ?_)) fun a ha => ha.2
    · have x1 : Exact f (s.excess.get (net.src e) - cap s.toCostScaling e) := by
        have := W1.exact_excess ok b hs
        rwa [m.ex, shifted, if_pos rfl] at this
      have x2 : Exact f (s.excess.get (net.dst e) + cap s.toCostScaling e) := by
        have := W1.exact_excess ok b hd
        rwa [m.ex, shifted, if_neg (ok.ne e he).symm, if_pos rfl] at this
      have x3 : Exact f (cap s.toCostScaling (e ^^^ 1) + cap s.toCostScaling e) := by
        have := W1.exact_cap ok b hx
        rwa [m.cap _ hx, moved_x] at this
      unfold saturate
      have hv : (s.edge.get e).v = net.dst e := by rw [W.edge e he]
      have hv' : (arcE f (s.edge.get e)).v = net.dst e := hv
      refine (Sim.rd rfl).bind fun a _ ha => ?_
      obtain ⟨-, rfl⟩ := ha
      refine (W.costPi_sim ok b he).bind fun w _ hw => ?_
      refine .ite Flt.lt_ofRat (fun _ => ?_) fun _ => .ok rfl trivial
      refine (Sim.rd rfl).bind fun a _ ha => ?_
      obtain ⟨-, rfl⟩ := ha
      refine (Sim.wr rfl x1.sub).bind fun ex1 _ hex1 => ?_
      obtain ⟨-, rfl⟩ := hex1
      refine (Sim.rd rfl).bind fun a _ ha => ?_
      obtain ⟨-, rfl⟩ := ha
      rw [hv, hv', Vec.set_get_ne _ _ (ok.ne e he).symm]
      refine (Sim.wr rfl x2.add).bind fun ex2 _ hex2 => ?_
      refine (Sim.rd rfl).bind fun a _ ha => ?_
      obtain ⟨-, rfl⟩ := ha
      refine (setCapacity_sim rfl x3.add).bind fun ed1 _ _ => ?_
      exact (setCapacity_sim rfl rfl).bind fun ed1 _ _ => .ok rfl trivial
    · rw [h2] at ha
      cases ha
      exact ⟨W1, m2⟩

theorem push_sim (W : Weak net Uc cS pS h t s) {e : Nat} (he : e < net.E) {g : ℚ} (hg0 : 0 ≤ g) (hg : g ≤ cap s.toCostScaling e) (hgU : g ∈ Uc) :
    Sim (push (net.src e) e g s) (push (net.src e) e (Flt.ofRat f g) (rfE f s)) (rfE f) (fun s' => Weak net Uc cS pS h t s' ∧ Moved net s s' e g) := by
  have hs := ok.src_lt e he
  have hd := ok.dst_lt he
  have hx := ok.x_lt e he
  obtain ⟨s1, h2, m, -⟩ := push_spec ok W.toRStatic he g
  have W1 := W.moved ok m he hg0 hg hgU
  refine Sim.mono (Q := fun s' => True ∧ Weak net Uc cS pS h t s' ∧ Moved net s s' e g) (Sim.and ?_ (fun a ha => ?_)) fun a ha => ha.2
  · have x1 : Exact f (s.excess.get (net.src e) - g) := by
      have := W1.exact_excess ok b hs
      rwa [m.ex, shifted, if_pos rfl] at this
    have x2 : Exact f (s.excess.get (net.dst e) + g) := by
      have := W1.exact_excess ok b hd
      rwa [m.ex, shifted, if_neg (ok.ne e he).symm, if_pos rfl] at this
    have x3 : Exact f (cap s.toCostScaling (e ^^^ 1) + g) := by
      have := W1.exact_cap ok b hx
      rwa [m.cap _ hx, moved_x] at this
    have x4 : Exact f (cap s.toCostScaling e - g) := by
      have := W1.exact_cap ok b he
      rwa [m.cap _ he, moved_self] at this
    unfold push
    have hv : (s.edge.get e).v = net.dst e := by rw [W.edge e he]
    have hv' : (arcE f (s.edge.get e)).v = net.dst e := hv
    refine (Sim.rd rfl).bind fun a _ ha => ?_
    obtain ⟨-, rfl⟩ := ha
    refine (setCapacity_sim rfl x4.sub).bind fun ed1 _ h1 => ?_
    obtain ⟨-, rfl⟩ := h1
    refine (Sim.rd rfl).bind fun a _ ha => ?_
    obtain ⟨-, rfl⟩ := ha
    rw [Vec.set_get_ne _ _ (x_ne e)]
    refine (setCapacity_sim rfl x3.add).bind fun ed2 _ h1 => ?_
    refine (Sim.rd rfl).bind fun a _ ha => ?_
    obtain ⟨-, rfl⟩ := ha
    refine (Sim.wr rfl x1.sub).bind fun ex1 _ hex1 => ?_
    obtain ⟨-, rfl⟩ := hex1
    refine (Sim.rd rfl).bind fun a _ ha => ?_
    obtain ⟨-, rfl⟩ := ha
    rw [hv, hv', Vec.set_get_ne _ _ (ok.ne e he).symm]
    refine (Sim.wr rfl x2.add).bind fun ex2 _ hex2 => ?_
    refine (Sim.rd rfl).bind fun c _ hc => ?_
    refine Sim.bind_same fun d _ => ?_
    refine .ite ?_ (fun _ => ?_) fun _ => .ok rfl trivial
    · exact and_congr Flt.lt_ofRat Iff.rfl
    · exact Sim.bind_same fun vis _ => .ok rfl trivial
  · rw [h2] at ha
    cases ha
    exact ⟨W1, m⟩

theorem half_exact (W : Weak net Uc cS pS h t s) {u : Nat} (hu : u < net.N) : Flt.ofRat f s.epsilon / ((2 : Int) : Flt f) = Flt.ofRat f (s.epsilon / ((2 : Int) : ℚ)) ∧
    s.epsilon / ((2 : Int) : ℚ) = h := by
  have h1 : s.epsilon / ((2 : Int) : ℚ) = h := by rw [W.eps]; push_cast; exact mul_div_cancel_left₀ _ (by norm_num)
  have p1 : (0 : ℚ) ≤ (net.N : ℚ) * h := mul_nonneg (by positivity) b.hpos.le
  have e2 : Exact f ((2 : Int) : ℚ) := b.exN _ (Bnd.intU ok b W 2) (.inl (by norm_num))
  rw [e2.int]
  refine ⟨Exact.div (by norm_num) ?_, h1⟩
  rw [h1]
  refine b.exQ h b.hU u hu ?_
  rw [abs_of_pos b.hpos]
  have := abs_nonneg (pS u)
  linarith

theorem relabel_sim (W : Weak net Uc cS pS h t s) {u : Nat} (hu : u < net.N) (hi : s.incp.get u ≤ 6 * net.N * h) :
    Sim (relabel u s) (relabel u (rfE f s)) (rfE f) (fun s' => Weak net Uc cS pS h t s') := by
  obtain ⟨k, hk⟩ := W.pot
  obtain ⟨k1, k2, k3⟩ := hk u hu
  have hku : k u ≤ 6 * net.N := by
    rw [k2] at hi
    exact_mod_cast le_of_mul_le_mul_right (b := (k u : ℚ)) (c := ((6 * net.N : Nat) : ℚ)) (by push_cast; exact hi) b.hpos
  obtain ⟨hh, hh'⟩ := half_exact ok b W hu
  have kb : (k u : ℚ) * h + h ≤ (6 * net.N + 1) * h := by
    have : ((k u : ℚ) + 1) * h ≤ (6 * net.N + 1) * h := mul_le_mul_of_nonneg_right (by exact_mod_cast Nat.succ_le_succ hku) b.hpos.le
    linarith
  have k0 : (0 : ℚ) ≤ k u * h := mul_nonneg (Nat.cast_nonneg _) b.hpos.le
  have x1 : Exact f (s.p.get u + s.epsilon / ((2 : Int) : ℚ)) := by
    rw [hh']
    refine b.exQ _ (Up.add_mem (W.potU ok b hu) b.hU) u hu ?_
    rw [k1, add_assoc]
    refine (abs_add_le _ _).trans (add_le_add_right ?_ _)
    rw [abs_of_nonneg (by linarith [b.hpos])]
    exact kb
  have x2 : Exact f (s.incp.get u + s.epsilon / ((2 : Int) : ℚ)) := by
    rw [hh']
    refine b.exQ _ (Up.add_mem (W.incU ok b hu) b.hU) u hu ?_
    rw [k2, abs_of_nonneg (by linarith [b.hpos])]
    exact kb.trans (by linarith [abs_nonneg (pS u)])
  unfold relabel
  refine (Sim.rd rfl).bind fun a _ ha => ?_
  obtain ⟨-, rfl⟩ := ha
  refine (Sim.wr rfl (by rw [← x1.add, ← hh]; rfl)).bind fun p _ hp => ?_
  obtain ⟨-, rfl⟩ := hp
  refine (Sim.rd rfl).bind fun a _ ha => ?_
  obtain ⟨-, rfl⟩ := ha
  refine (Sim.wr rfl (by rw [← x2.add, ← hh]; rfl)).bind fun p _ hp => ?_
  obtain ⟨-, rfl⟩ := hp
  refine .ok rfl ⟨⟨⟨W.N, W.psz, W.hsz, W.head, W.esz, W.edge⟩, W.xsz, W.isz, W.csz, W.vsz⟩, W.eps, W.tc, W.nonneg, W.anti, W.ex, W.capU,
    ⟨Function.update k u (k u + 1), fun v hv => ?_⟩, W.cur⟩
  show (s.p.set u _).get v = _ ∧ (s.incp.set u _).get v = _ ∧ _
  rw [hh', Vec.set_get, Vec.set_get]
  by_cases hvu : v = u
  · subst hvu
    rw [if_pos rfl, if_pos rfl, Function.update_self, k1, k2]
    push_cast
    exact ⟨by ring, by ring, by omega⟩
  · rw [if_neg hvu, if_neg hvu, Function.update_of_ne hvu]
    exact hk v hv

theorem discharge_sim {u : Nat} (hu : u < net.N) : ∀ (fuel : Nat) (s : Refining ℚ), Weak net Uc cS pS h t s → 0 < s.excess.get u →
    Sim (discharge u fuel s) (discharge u fuel (rfE f s)) (fun r => (rfE f r.1, r.2))
      (fun r => Weak net Uc cS pS h t r.1 ∧ r.1.incp = s.incp) := by
  intro fuel
  induction fuel with
  | zero => intro s _ _; exact .error
  | succ fuel ih =>
    intro s W hex
    unfold discharge
    refine Sim.bind_same fun c hc => ?_
    have hc' : c = s.current_edge.get u := by
      rw [Vec.rd_ok (by rw [W.csz]; exact hu)] at hc
      cases hc; rfl
    cases c with
    | none => exact .ok rfl ⟨W, rfl⟩
    | some i =>
      obtain ⟨L, l1, l2⟩ := W.cur u hu
      rw [← hc'] at l1
      cases L with
      | nil => cases l1
      | cons i' L =>
        obtain ⟨l3, l4⟩ := l1
        cases l3
        obtain ⟨hi, rfl⟩ := l2 i (by simp)
        dsimp only
        refine (Sim.rd rfl).bind fun a _ ha => ?_
        obtain ⟨-, rfl⟩ := ha
        refine (W.costPi_sim ok b hi).bind fun w _ hw => ?_
        have rest : ∀ s1, Weak net Uc cS pS h t s1 → s1.incp = s.incp → s1.current_edge = s.current_edge → (0 ≤ s1.excess.get (net.src i)) →
            Sim (do
              let x ← s1.excess.rd (net.src i)
              if (x == 0) = true then (.ok (s1, true) : Res (Refining ℚ × Bool))
              else do
                let e ← s1.edge.rd i
                let cur ← s1.current_edge.wr (net.src i) e.next
                discharge (net.src i) fuel { s1 with current_edge := cur })
              (do
              let x ← (rfE f s1).excess.rd (net.src i)
              if (x == 0) = true then (.ok (rfE f s1, true) : Res (Refining (Flt f) × Bool))
              else do
                let e ← (rfE f s1).edge.rd i
                let cur ← (rfE f s1).current_edge.wr (net.src i) e.next
                discharge (net.src i) fuel { rfE f s1 with current_edge := cur })
              (fun r => (rfE f r.1, r.2)) (fun r => Weak net Uc cS pS h t r.1 ∧ r.1.incp = s.incp) := by
          intro s1 W1 q1 q2 q3
          refine (Sim.rd rfl).bind fun x _ hx => ?_
          obtain ⟨-, rfl⟩ := hx
          refine .ite ?_ (fun _ => .ok rfl ⟨W1, q1⟩) fun hz => ?_
          · rw [Flt.zero_ofRat, Flt.beq_ofRat]
            simp
          · have hz : s1.excess.get (net.src i) ≠ 0 := by simpa using hz
            refine (Sim.rd rfl).bind fun a _ ha => ?_
            obtain ⟨-, rfl⟩ := ha
            refine Sim.bind_same fun cur hcur => ?_
            have hcur : s1.current_edge.wr (net.src i) (net.nxt i) = .ok cur := by
              rw [← hcur, W1.edge i hi]
            rw [Vec.wr_ok _ (by rw [W1.csz]; exact hu)] at hcur
            cases hcur
            have W2 : Weak net Uc cS pS h t { s1 with current_edge := s1.current_edge.set (net.src i) (net.nxt i) } := by
              refine ⟨⟨W1.toStatic, W1.xsz, W1.isz, W1.csz, W1.vsz⟩, W1.eps, W1.tc, W1.nonneg, W1.anti, W1.ex, W1.capU, W1.pot, fun w hw => ?_⟩
              show ∃ L, Chain net.nxt ((s1.current_edge.set (net.src i) (net.nxt i)).get w) L ∧ _
              by_cases hwu : w = net.src i
              · subst hwu
                rw [Vec.set_get_self]
                exact ⟨L, l4, fun e he => l2 e (List.mem_cons_of_mem _ he)⟩
              · rw [Vec.set_get_ne _ _ hwu]
                exact W1.cur w hw
            exact (ih { s1 with current_edge := s1.current_edge.set (net.src i) (net.nxt i) } W2 (lt_of_le_of_ne q3 hz.symm)).mono
              fun r hr => ⟨hr.1, hr.2.trans q1⟩
        by_cases hw0 : w < 0
        · rw [if_pos hw0]
          have hw0' : Flt.ofRat f w < 0 := Flt.lt_ofRat.2 hw0
          rw [if_pos hw0']
          refine (Sim.rd rfl).bind fun x _ hx => ?_
          obtain ⟨-, rfl⟩ := hx
          rw [show (arcE f (s.edge.get i)).capacity = Flt.ofRat f (cap s.toCostScaling i) from rfl,
            show (s.edge.get i).capacity = cap s.toCostScaling i from rfl, Flt.dmin_ofRat]
          have hcap := W.nonneg i hi
          refine (push_sim ok b W hi (g := dmin (cap s.toCostScaling i) (s.excess.get (net.src i))) ?_ ?_ ?_).bind fun s1 _ hs1 =>
            rest s1 hs1.1 hs1.2.incp hs1.2.cur ?_
          · unfold dmin; split
            · exact hex.le
            · exact hcap
          · unfold dmin; split
            · rename_i hlt; exact hlt.le
            · exact le_rfl
          · unfold dmin; split
            · rw [W.ex _ hu]
              exact sum_mem fun e he => Uc.sub_mem (W.capU e (Finset.mem_range.1 (Finset.mem_filter.1 he).1))
                (b.capS e (Finset.mem_range.1 (Finset.mem_filter.1 he).1))
            · exact W.capU i hi
          · rw [hs1.2.ex, shifted, if_pos rfl]
            unfold dmin; split
            · simp
            · rename_i hlt; linarith [not_lt.1 hlt]
        · have hw0' : ¬ Flt.ofRat f w < 0 := fun hc => hw0 (Flt.lt_ofRat.1 hc)
          rw [if_neg hw0, if_neg hw0', ok_bind, ok_bind]
          exact rest s W rfl rfl hex.le

theorem modify_sim (W : Weak net Uc cS pS h t s) {u : Nat} (hu : u < net.N) (hi : s.incp.get u ≤ 6 * net.N * h) (fuel : Nat) :
    Sim (CostScaling.modify fuel u s) (CostScaling.modify fuel u (rfE f s)) (rfE f) (fun s' => Weak net Uc cS pS h t s') := by
  unfold CostScaling.modify
  refine (Sim.rd rfl).bind fun x _ hx => ?_
  obtain ⟨-, rfl⟩ := hx
  refine .ite Flt.lt_ofRat (fun hex => ?_) fun _ => .error
  refine (discharge_sim ok b hu fuel s W hex).bind fun r _ hr => ?_
  obtain ⟨s1, ret⟩ := r
  obtain ⟨W1, q1⟩ := hr
  dsimp only at W1 q1 ⊢
  refine .ite Iff.rfl (fun _ => .ok rfl W1) fun _ => ?_
  refine (Sim.rd rfl).bind fun x _ hx => ?_
  obtain ⟨-, rfl⟩ := hx
  refine .ite Flt.lt_ofRat (fun _ => ?_) fun _ => .error
  refine (relabel_sim ok b W1 hu (by rw [q1]; exact hi)).bind fun s2 _ W2 => ?_
  refine Sim.bind_same fun hd hhd => ?_
  have hhd : hd = net.head u := by
    rw [Vec.rd_ok (by rw [W2.hsz]; exact hu)] at hhd
    cases hhd; exact W2.head u hu
  refine Sim.bind_same fun cur hcur => ?_
  rw [Vec.wr_ok _ (by rw [W2.csz]; exact hu)] at hcur
  cases hcur
  refine Sim.bind_same fun vis hvis => ?_
  rw [Vec.wr_ok _ (by rw [W2.vsz]; exact hu)] at hvis
  cases hvis
  refine .ok rfl ⟨⟨W2.toStatic, W2.xsz, W2.isz, W2.csz, W2.vsz⟩, W2.eps, W2.tc, W2.nonneg, W2.anti, W2.ex, W2.capU, W2.pot, fun w hw => ?_⟩
  show ∃ L, Chain net.nxt ((s2.current_edge.set u hd).get w) L ∧ _
  by_cases hwu : w = u
  · subst hwu
    rw [Vec.set_get_self, hhd]
    exact ⟨net.adj w, ok.chain w hw, fun e he => (ok.adj w hw e).1 he⟩
  · rw [Vec.set_get_ne _ _ hwu]
    exact W2.cur w hw

theorem refineLoop_sim (fuel : Nat) : ∀ (n : Nat) (s : Refining ℚ), Weak net Uc cS pS h t s →
    Sim (refineLoop fuel n s) (refineLoop fuel n (rfE f s)) (fun r => (rfE f r.1, r.2)) (fun r => Weak net Uc cS pS h t r.1) := by
  intro n
  induction n with
  | zero => intro s _; exact .error
  | succ n ih =>
    intro s W
    unfold refineLoop
    rw [show (rfE f s).st = s.st from rfl]
    cases s.st with
    | nil => exact .ok rfl W
    | cons u st =>
      simp only []
      refine Sim.bind_same fun vis hvis => ?_
      have hu : u < net.N := by
        by_contra hc
        rw [← W.vsz] at hc
        simp [Vec.wr, hc] at hvis
      rw [Vec.wr_ok _ (by rw [W.vsz]; exact hu)] at hvis
      cases hvis
      have W1 : Weak net Uc cS pS h t { s with st := st, vis := s.vis.set u false } :=
        ⟨⟨W.toStatic, W.xsz, W.isz, W.csz, W.vsz⟩, W.eps, W.tc, W.nonneg, W.anti, W.ex, W.capU, W.pot, W.cur⟩
      refine (Sim.rd rfl).bind fun a _ ha => ?_
      obtain ⟨-, rfl⟩ := ha
      have p1 : (0 : ℚ) ≤ (net.N : ℚ) * h := mul_nonneg (by positivity) b.hpos.le
      have hN1 : (1 : ℚ) ≤ net.N := by exact_mod_cast (by omega : 1 ≤ net.N)
      have p2 : h ≤ (net.N : ℚ) * h := le_mul_of_one_le_left b.hpos.le hN1
      have a1 := abs_nonneg (pS u)
      have x3 : Exact f ((3 : Int) : ℚ) := b.exN _ (Bnd.intU ok b W 3) (.inl (by norm_num))
      have xN : Exact f ((s.N : Int) : ℚ) := b.exN _ (Bnd.intU ok b W _) (.inr (by rw [W.N]; simp))
      have y1 : Exact f (s.epsilon * ((3 : Int) : ℚ)) := by
        rw [W.eps, show 2 * h * ((3 : Int) : ℚ) = (6 : Nat) * h by push_cast; ring]
        refine b.exQ _ (by rw [← nsmul_eq_mul]; exact Up.nsmul_mem b.hU _) u hu ?_
        rw [abs_of_nonneg (mul_nonneg (by norm_num) b.hpos.le)]
        push_cast
        linarith [b.hpos]
      have y2 : Exact f (s.epsilon * ((3 : Int) : ℚ) * ((s.N : Int) : ℚ)) := by
        rw [W.eps, W.N, show 2 * h * ((3 : Int) : ℚ) * ((net.N : Int) : ℚ) = (6 * net.N : Nat) * h by push_cast; ring]
        refine b.exQ _ (by rw [← nsmul_eq_mul]; exact Up.nsmul_mem b.hU _) u hu ?_
        rw [abs_of_nonneg (mul_nonneg (Nat.cast_nonneg _) b.hpos.le)]
        push_cast
        linarith [b.hpos]
      have key : (rfE f s).epsilon * ((3 : Int) : Flt f) * (((rfE f s).N : Int) : Flt f) = Flt.ofRat f (s.epsilon * ((3 : Int) : ℚ) * ((s.N : Int) : ℚ)) := by
        rw [show (rfE f s).epsilon = Flt.ofRat f s.epsilon from rfl, show (rfE f s).N = s.N from rfl, x3.int, xN.int, y1.mul, y2.mul]
      refine .ite ?_ (fun _ => .ok rfl W1) fun hle => ?_
      · show (rfE f s).epsilon * ((3 : Int) : Flt f) * (((rfE f s).N : Int) : Flt f) < Flt.ofRat f (s.incp.get u) ↔ _
        rw [key]; exact Flt.lt_ofRat
      · refine (modify_sim ok b W1 hu ?_ fuel).bind fun s2 _ W2 => ih s2 W2
        refine (not_lt.1 hle).trans (le_of_eq ?_)
        show s.epsilon * ((3 : Int) : ℚ) * ((s.N : Int) : ℚ) = _
        rw [W.eps, W.N]; push_cast; ring

theorem saturateNode_sim (fuel : Nat) (W : Weak net Uc cS pS h t s) {u : Nat} (hu : u < net.N) :
    Sim (saturateNode fuel s u) (saturateNode fuel (rfE f s) u) (rfE f) (fun s' => Weak net Uc cS pS h t s') := by
  unfold saturateNode
  refine Sim.bind_same fun hd hhd => ?_
  have hhd : hd = net.head u := by
    rw [Vec.rd_ok (by rw [W.hsz]; exact hu)] at hhd
    cases hhd; exact W.head u hu
  refine Sim.bind (g := fun r : Refining ℚ × Option Nat => (rfE f r.1, r.2)) (Sim.whileLoop (g := fun r : Refining ℚ × Option Nat => (rfE f r.1, r.2))
    (fun r => Weak net Uc cS pS h t r.1 ∧ ∃ L, Chain net.nxt r.2 L ∧ ∀ e ∈ L, e < net.E ∧ net.src e = u) (fun r hr => .ok (g := fun b => b) rfl trivial) (fun r hr _ => ?_) fuel (s, hd)
    ⟨W, net.adj u, by rw [hhd]; exact ok.chain u hu, fun e he => (ok.adj u hu e).1 he⟩) fun r _ hr => .ok rfl hr.1.1
  obtain ⟨s1, o⟩ := r
  obtain ⟨W1, L, l1, l2⟩ := hr
  dsimp only at W1 l1 ⊢
  cases o with
  | none => exact .ok rfl ⟨W1, L, l1, l2⟩
  | some i =>
    cases L with
    | nil => cases l1
    | cons i' L =>
      obtain ⟨l3, l4⟩ := l1
      cases l3
      obtain ⟨hi, rfl⟩ := l2 i (by simp)
      dsimp only
      refine (saturate_sim ok b W1 hi).bind fun s2 _ W2 => ?_
      refine (Sim.rd rfl).bind fun a _ ha => ?_
      obtain ⟨-, rfl⟩ := ha
      refine .ok rfl ⟨W2.1, L, ?_, fun e he => l2 e (List.mem_cons_of_mem _ he)⟩
      dsimp only
      rw [W2.1.edge i hi]
      exact l4

theorem pushActive_sim (W : Weak net Uc cS pS h t s) {u : Nat} (hu : u < net.N) :
    Sim (pushActive s u) (pushActive (rfE f s) u) (rfE f) (fun s' => Weak net Uc cS pS h t s') := by
  unfold pushActive
  refine (Sim.rd rfl).bind fun x _ hx => ?_
  refine .ite Flt.lt_ofRat (fun _ => ?_) fun _ => .ok rfl W
  refine Sim.bind_same fun vis hvis => ?_
  rw [Vec.wr_ok _ (by rw [W.vsz]; exact hu)] at hvis
  cases hvis
  exact .ok rfl ⟨⟨W.toStatic, W.xsz, W.isz, W.csz, W.vsz⟩, W.eps, W.tc, W.nonneg, W.anti, W.ex, W.capU, W.pot, W.cur⟩

/-- A phase is exact. -/
theorem refine_sim (fuel : Nat) {s : CostScaling ℚ} (S : Static net s) (heps : s.epsilon = 2 * h) (htc : s.total_cost = t) (hp : ∀ v, v < net.N → s.p.get v = pS v)
    (hc : ∀ e, e < net.E → cap s e = cS e) :
    Sim (CostScaling.refine fuel s) (CostScaling.refine fuel (csE f s)) (fun r => (csE f r.1, r.2))
      (fun r => ∃ r', r'.toCostScaling = r.1 ∧ Weak net Uc cS pS h t r') := by
  unfold CostScaling.refine
  have W0 : Weak net Uc cS pS h t { s with
      excess := Vec.replicate s.N 0
      incp := Vec.replicate s.N 0
      current_edge := s.head
      vis := Vec.replicate s.N false
      st := [] } := by
    refine ⟨⟨S, S.N, S.N, S.hsz, S.N⟩, heps, htc, fun e he => ?_, fun e he => ?_, fun v hv => ?_, fun e he => ?_, ⟨fun _ => 0, fun v hv => ⟨?_, ?_, Nat.zero_le _⟩⟩,
      fun w hw => ⟨net.adj w, ?_, fun e he => (ok.adj w hw e).1 he⟩⟩
    · show 0 ≤ cap s e
      rw [hc e he]; exact b.capS0 e he
    · show cap s _ - _ = -(cap s e - _)
      rw [hc e he, hc _ (ok.x_lt e he)]; simp
    · symm
      refine Finset.sum_eq_zero fun e he => ?_
      show cap s e - _ = 0
      rw [hc e (Finset.mem_range.1 (Finset.mem_filter.1 he).1), sub_self]
    · show cap s e ∈ _
      rw [hc e he]; exact b.capS e he
    · show s.p.get v = _
      rw [hp v hv]; simp
    · show (0 : ℚ) = _
      simp
    · show Chain net.nxt (s.head.get w) _
      rw [S.head w hw]; exact ok.chain w hw
  have hN : s.N = net.N := S.N
  refine Sim.bind (g := rfE f) (Q := fun s' => Weak net Uc cS pS h t s') (Sim.forRange (g := rfE f) (fun s' => Weak net Uc cS pS h t s') (hi := s.N)
    (fun s' i hs hi => saturateNode_sim ok b fuel hs (by omega)) s.N 0 _ W0 (by omega)) fun s1 _ W1 => ?_
  refine Sim.bind (g := rfE f) (Q := fun s' => Weak net Uc cS pS h t s') (Sim.forRange (g := rfE f) (fun s' => Weak net Uc cS pS h t s') (hi := s.N)
    (fun s' i hs hi => pushActive_sim ok b hs (by omega)) s.N 0 _ W1 (by omega)) fun s2 _ W2 => ?_
  refine (refineLoop_sim ok b fuel fuel s2 W2).bind fun r _ hr => ?_
  obtain ⟨s3, ret⟩ := r
  exact .ok rfl ⟨s3, rfl, hr⟩

end steps

end CS
end AHO
