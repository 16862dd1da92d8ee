import Verif.Proof.CSNet
/-!
# `CostScaling::Refine`: what the single steps do
-/

namespace AHO.CS
open AHO CostScaling
set_option linter.unusedSectionVars false

variable {net : Net}

section
variable {K : Type}

/-- residual capacity -/
def cap (s : CostScaling K) (e : Nat) : K := (s.edge.get e).capacity

/-- The object contains the network. -/
structure Static (net : Net) (s : CostScaling K) : Prop where
  N : s.N = net.N
  psz : s.p.size = net.N
  hsz : s.head.size = net.N
  head : ∀ u, u < net.N → s.head.get u = net.head u
  esz : s.edge.size = net.E
  edge : ∀ e, e < net.E → s.edge.get e = ⟨net.nxt e, net.dst e, net.cst e, cap s e⟩

/-- The same for the state inside `Refine`. -/
structure RStatic (net : Net) (s : Refining K) : Prop extends Static net s.toCostScaling where
  xsz : s.excess.size = net.N
  isz : s.incp.size = net.N
  csz : s.current_edge.size = net.N
  vsz : s.vis.size = net.N

section
variable [Add K] [Sub K]

/-- residual capacities after `f` units were pushed through `x` -/
def moved (c : Nat → K) (x : Nat) (f : K) (e : Nat) : K :=
  if e = x then c x - f else if e = x ^^^ 1 then c (x ^^^ 1) + f else c e

/-- excesses after `f` units were pushed from `u` to `v` -/
def shifted (c : Nat → K) (u v : Nat) (f : K) (w : Nat) : K :=
  if w = u then c u - f else if w = v then c v + f else c w

end

theorem costPi_ok [Add K] [Sub K] [IntCast K] {s : CostScaling K} (st : Static net s) {e : Nat} (ok : net.OK) (he : e < net.E) :
    s.costPi (net.src e) (s.edge.get e) = .ok (rc net s.p.get e) := by
  unfold costPi
  rw [Vec.rd_ok (by rw [st.psz]; exact ok.src_lt e he), ok_bind, st.edge e he,
    Vec.rd_ok (by rw [st.psz]; exact ok.dst_lt he), ok_bind]
  rfl

theorem setCapacity_ok {edge : Vec (CArc K)} {i : Nat} (h : i < edge.size) (c : K) :
    setCapacity edge i c = .ok (edge.set i { edge.get i with capacity := c }) := by
  unfold setCapacity
  rw [Vec.rd_ok h, ok_bind, Vec.wr_ok _ h]

theorem two_sets {edge : Vec (CArc K)} {x y : Nat} (hxy : y ≠ x) (a b : K) (e : Nat) :
    ((edge.set x { edge.get x with capacity := a }).set y
      { (edge.set x { edge.get x with capacity := a }).get y with capacity := b }).get e =
    { edge.get e with capacity := if e = x then a else if e = y then b else (edge.get e).capacity } := by
  rw [Vec.set_get, Vec.set_get, Vec.set_get]
  by_cases h1 : e = y
  · subst h1; rw [if_pos rfl, if_neg hxy, if_neg hxy, if_pos rfl]
  · rw [if_neg h1]
    by_cases h2 : e = x
    · subst h2; rw [if_pos rfl, if_pos rfl]
    · rw [if_neg h2, if_neg h2, if_neg h1]

/-- What `Push` and the saturation have in common. -/
structure Moved [Add K] [Sub K] (net : Net) (s s' : Refining K) (x : Nat) (f : K) : Prop where
  st : RStatic net s'
  p : s'.p = s.p
  incp : s'.incp = s.incp
  cur : s'.current_edge = s.current_edge
  eps : s'.epsilon = s.epsilon
  tc : s'.total_cost = s.total_cost
  cap : ∀ e, e < net.E → cap s'.toCostScaling e = moved (cap s.toCostScaling) x f e
  ex : ∀ v, s'.excess.get v = shifted s.excess.get (net.src x) (net.dst x) f v

theorem moved_static [Add K] [Sub K] {s : Refining K} (st : RStatic net s) {x : Nat} {a b f : K} {edge : Vec (CArc K)}
    {excess : Vec K} {vis : Vec Bool} {l : List Nat}
    (h1 : edge.size = s.edge.size)
    (h2 : ∀ e, edge.get e = { s.edge.get e with capacity := if e = x then a else if e = x ^^^ 1 then b else (s.edge.get e).capacity })
    (ha : a = cap s.toCostScaling x - f) (hb : b = cap s.toCostScaling (x ^^^ 1) + f)
    (h3 : excess.size = s.excess.size) (h4 : vis.size = s.vis.size)
    (h5 : ∀ v, excess.get v = shifted s.excess.get (net.src x) (net.dst x) f v) :
    Moved net s { s with edge := edge, excess := excess, vis := vis, st := l } x f := by
  have hc : ∀ e, (edge.get e).capacity = moved (cap s.toCostScaling) x f e := by
    intro e
    rw [h2]
    unfold moved
    dsimp only
    split
    · exact ha
    · split
      · exact hb
      · rfl
  refine ⟨⟨⟨st.N, st.psz, st.hsz, st.head, by rw [← st.esz]; exact h1, fun e he => ?_⟩, by rw [← st.xsz]; exact h3, st.isz, st.csz,
    by rw [← st.vsz]; exact h4⟩, rfl, rfl, rfl, rfl, rfl, fun e _ => hc e, h5⟩
  show edge.get e = ⟨_, _, _, (edge.get e).capacity⟩
  rw [h2, st.edge e he]

variable [LinearOrder K] [Zero K] [Add K] [Sub K] [Mul K] [Div K] [IntCast K] [BEq K]

theorem saturate_spec (hsub : ∀ x : K, x - x = 0) (ok : net.OK) {s : Refining K} (st : RStatic net s) {e : Nat} (he : e < net.E) :
    (¬ rc net s.p.get e < 0 ∧ saturate (net.src e) e s = .ok s) ∨
    (rc net s.p.get e < 0 ∧ ∃ s', saturate (net.src e) e s = .ok s' ∧ Moved net s s' e (cap s.toCostScaling e) ∧
      s'.vis = s.vis ∧ s'.st = s.st) := by
  have hx := ok.x_lt e he
  have hne := x_ne e
  have hs := ok.src_lt e he
  have hd := ok.dst_lt he
  unfold saturate
  rw [Vec.rd_ok (by rw [st.esz]; exact he), ok_bind, costPi_ok st.toStatic ok he, ok_bind]
  by_cases hw : rc net s.p.get e < 0
  · right
    refine ⟨hw, ?_⟩
    rw [if_pos hw]
    have hv : (s.edge.get e).v = net.dst e := by rw [st.edge e he]
    rw [hv, Vec.rd_ok (by rw [st.xsz]; exact hs), ok_bind, Vec.wr_ok _ (by rw [st.xsz]; exact hs), ok_bind,
      Vec.rd_ok (by rw [Vec.set_size, st.xsz]; exact hd), ok_bind, Vec.wr_ok _ (by rw [Vec.set_size, st.xsz]; exact hd), ok_bind,
      Vec.rd_ok (by rw [st.esz]; exact hx), ok_bind, setCapacity_ok (by rw [st.esz]; exact hx), ok_bind,
      setCapacity_ok (by rw [Vec.set_size, st.esz]; exact he), ok_bind]
    refine ⟨_, rfl, moved_static st (a := 0) (b := (s.edge.get (e ^^^ 1)).capacity + (s.edge.get e).capacity) rfl (fun k => ?_)
      (by unfold cap; exact (hsub _).symm) rfl rfl rfl (fun v => ?_), rfl, rfl⟩
    · rw [two_sets hne.symm]
      by_cases h1 : k = e
      · rw [if_pos h1, if_pos h1, if_neg (by rw [h1]; exact hne.symm)]
      · rw [if_neg h1, if_neg h1]
    · unfold shifted
      rw [Vec.set_get, Vec.set_get, Vec.set_get, if_neg (ok.ne e he).symm]
      by_cases h1 : v = net.dst e
      · rw [if_pos h1, if_neg (by rw [h1]; exact (ok.ne e he).symm), if_pos h1]; rfl
      · rw [if_neg h1, if_neg h1]; rfl
  · left
    refine ⟨hw, ?_⟩
    rw [if_neg hw]

theorem push_spec (ok : net.OK) {s : Refining K} (st : RStatic net s) {e : Nat} (he : e < net.E) (f : K) :
    ∃ s', push (net.src e) e f s = .ok s' ∧ Moved net s s' e f ∧
      ((0 < s.excess.get (net.dst e) + f ∧ s.vis.get (net.dst e) = false ∧ s'.st = net.dst e :: s.st ∧
          s'.vis = s.vis.set (net.dst e) true) ∨
        (¬ (0 < s.excess.get (net.dst e) + f ∧ s.vis.get (net.dst e) = false) ∧ s'.st = s.st ∧ s'.vis = s.vis)) := by
  have hx := ok.x_lt e he
  have hne := x_ne e
  have hs := ok.src_lt e he
  have hd := ok.dst_lt he
  unfold push
  have hv : (s.edge.get e).v = net.dst e := by rw [st.edge e he]
  rw [Vec.rd_ok (by rw [st.esz]; exact he), ok_bind, setCapacity_ok (by rw [st.esz]; exact he), ok_bind,
    Vec.rd_ok (by rw [Vec.set_size, st.esz]; exact hx), ok_bind, setCapacity_ok (by rw [Vec.set_size, st.esz]; exact hx), ok_bind,
    hv, Vec.rd_ok (by rw [st.xsz]; exact hs), ok_bind, Vec.wr_ok _ (by rw [st.xsz]; exact hs), ok_bind,
    Vec.rd_ok (by rw [Vec.set_size, st.xsz]; exact hd), ok_bind, Vec.wr_ok _ (by rw [Vec.set_size, st.xsz]; exact hd), ok_bind]
  dsimp only
  rw [Vec.rd_ok (by rw [Vec.set_size, Vec.set_size, st.xsz]; exact hd), ok_bind, Vec.rd_ok (by rw [st.vsz]; exact hd), ok_bind,
    Vec.set_get_self, Vec.set_get_ne _ _ (ok.ne e he).symm]
  have hE : ∀ k, ((s.edge.set e { s.edge.get e with capacity := (s.edge.get e).capacity - f }).set (e ^^^ 1)
      { (s.edge.set e { s.edge.get e with capacity := (s.edge.get e).capacity - f }).get (e ^^^ 1) with
        capacity := ((s.edge.set e { s.edge.get e with capacity := (s.edge.get e).capacity - f }).get (e ^^^ 1)).capacity + f }).get k
      = { s.edge.get k with capacity := if k = e then (s.edge.get e).capacity - f else if k = e ^^^ 1 then
          ((s.edge.set e { s.edge.get e with capacity := (s.edge.get e).capacity - f }).get (e ^^^ 1)).capacity + f
          else (s.edge.get k).capacity } := fun k => two_sets hne _ _ k
  have hb : ((s.edge.set e { s.edge.get e with capacity := (s.edge.get e).capacity - f }).get (e ^^^ 1)).capacity + f =
      cap s.toCostScaling (e ^^^ 1) + f := by
    rw [Vec.set_get_ne _ _ hne]; rfl
  have hX : ∀ v, ((s.excess.set (net.src e) (s.excess.get (net.src e) - f)).set (net.dst e)
      (s.excess.get (net.dst e) + f)).get v = shifted s.excess.get (net.src e) (net.dst e) f v := by
    intro v
    unfold shifted
    rw [Vec.set_get, Vec.set_get]
    by_cases h1 : v = net.dst e
    · rw [if_pos h1, if_neg (by rw [h1]; exact (ok.ne e he).symm), if_pos h1]
    · rw [if_neg h1, if_neg h1]
  by_cases hc : 0 < s.excess.get (net.dst e) + f ∧ s.vis.get (net.dst e) = false
  · rw [if_pos hc, Vec.wr_ok _ (by rw [st.vsz]; exact hd), ok_bind]
    exact ⟨_, rfl, moved_static st rfl hE rfl hb rfl rfl hX, Or.inl ⟨hc.1, hc.2, rfl, rfl⟩⟩
  · rw [if_neg hc]
    exact ⟨_, rfl, moved_static st rfl hE rfl hb rfl rfl hX, Or.inr ⟨hc, rfl, rfl⟩⟩

end

/-! ### Pure facts on moving flow -/

variable {K : Type} [Field K] [LinearOrder K] [IsStrictOrderedRing K]

section pure
variable {c c0 : Nat → K} {x : Nat} {f : K}

theorem moved_x : moved c x f (x ^^^ 1) = c (x ^^^ 1) + f := by
  unfold moved; rw [if_neg (x_ne x), if_pos rfl]

theorem moved_self : moved c x f x = c x - f := by
  unfold moved; rw [if_pos rfl]

theorem moved_anti (h : ∀ e, e < net.E → c (e ^^^ 1) - c0 (e ^^^ 1) = -(c e - c0 e)) :
    ∀ e, e < net.E → moved c x f (e ^^^ 1) - c0 (e ^^^ 1) = -(moved c x f e - c0 e) := by
  intro e he
  have := h e he
  unfold moved
  by_cases h1 : e = x
  · subst h1
    rw [if_neg (x_ne e), if_pos rfl, if_pos rfl]; linarith
  · rw [if_neg h1]
    by_cases h2 : e = x ^^^ 1
    · subst h2
      rw [x_x] at this ⊢
      rw [if_pos rfl, if_pos rfl]; linarith
    · rw [if_neg (fun h => h2 (by rw [← h, x_x])), if_neg (fun h => h1 (by rw [← x_x e, h, x_x])), if_neg h2]
      exact this

theorem moved_gain (ok : net.OK) (hx : x < net.E) (v : Nat) :
    gain net (fun e => moved c x f e - c0 e) v =
      shifted (gain net (fun e => c e - c0 e)) (net.src x) (net.dst x) f v := by
  have hne := ok.ne x hx
  have h1 : ∀ e, moved c x f e - c0 e = (c e - c0 e) + ((if e = x then -f else 0) + if e = x ^^^ 1 then f else 0) := by
    intro e
    unfold moved
    by_cases h1 : e = x
    · subst h1; rw [if_pos rfl, if_pos rfl, if_neg (x_ne e).symm]; ring
    · rw [if_neg h1, if_neg h1]
      by_cases h2 : e = x ^^^ 1
      · subst h2; rw [if_pos rfl, if_pos rfl]; ring
      · rw [if_neg h2, if_neg h2]; ring
  unfold gain
  simp only [h1]
  rw [Finset.sum_add_distrib, Finset.sum_add_distrib, Finset.sum_ite_eq', Finset.sum_ite_eq']
  simp only [Finset.mem_filter, Finset.mem_range, hx, ok.x_lt x hx, true_and, ok.src_x x hx]
  unfold shifted
  by_cases h2 : v = net.src x
  · subst h2
    rw [if_pos rfl, if_neg hne.symm, if_pos rfl]; ring
  · rw [if_neg (fun h => h2 h.symm), if_neg h2]
    by_cases h3 : v = net.dst x
    · subst h3; rw [if_pos rfl, if_pos rfl]; ring
    · rw [if_neg (fun h => h3 h.symm), if_neg h3]; ring

theorem moved_nonneg (h : ∀ e, e < net.E → 0 ≤ c e) (hf0 : 0 ≤ f) (hf : f ≤ c x) :
    ∀ e, e < net.E → 0 ≤ moved c x f e := by
  intro e he
  have := h e he
  unfold moved
  split
  · linarith
  · split
    · rename_i h2; subst h2; linarith
    · exact this

/-- An edge which has become usable is the reverse of the used one. -/
theorem moved_pos (hf0 : 0 ≤ f) {e : Nat} (h : 0 < moved c x f e) : 0 < c e ∨ e = x ^^^ 1 := by
  unfold moved at h
  split at h
  · rename_i h1; subst h1; left; linarith
  · split at h
    · right; assumption
    · left; exact h

end pure

end AHO.CS
