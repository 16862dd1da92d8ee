import Verif.Proof.Emb
import Verif.Proof.Mono
import Verif.Proof.Width
/-!
# Potentials only matter up to a common summand

`refineStep` on a state with all potentials raised by `c` does the same as on the original state, unless a potential overflows.
Hence, when a number of steps reproduces the state with raised potentials, the loop of `Flow::refine` ends with an overflow.
-/

namespace AHO
set_option linter.unusedSectionVars false

namespace Flow
variable {D : Type} [Zero D] [Add D] [Sub D] [Neg D]
  [LT D] [LE D] [DecidableLT D] [DecidableLE D] [BEq D]

/-- all entries raised by `c` -/
def raise (c : Int) (v : Vec Int) : Vec Int := ⟨v.size, fun k => if k < v.size then v.get k + c else v.get k⟩

theorem raise_rd (c : Int) (v : Vec Int) (k : Nat) : (raise c v).rd k = (v.rd k).map (· + c) := by
  by_cases h : k < v.size <;> simp [Vec.rd, raise, h]

theorem raise_set (c : Int) (v : Vec Int) (k : Nat) (x : Int) (h : k < v.size) :
    (raise c v).set k (x + c) = raise c (v.set k x) := by
  simp only [Vec.set, raise, Vec.mk.injEq, true_and]
  funext i
  by_cases hi : i = k
  · subst hi; simp [h]
  · simp [hi]

/-- `s` with all potentials raised by `c` -/
def shift (c : Int) (s : Flow D) : Flow D := { s with scaling := raise c s.scaling }

variable {imax : Int} {c : Int}

theorem shift_q (s : Flow D) (e : Nat) : q imax (s.shift c) e = q imax s e := by
  unfold q
  refine bind_congr fun e => ?_
  simp only [shift, raise_rd]
  cases h1 : s.scaling.rd e.i with
  | error => rfl
  | ok a =>
    cases h2 : s.scaling.rd e.j with
    | error => rfl
    | ok b =>
      have : a + c - (b + c) = a - b := by omega
      show (ck imax (a + c - (b + c)) >>= _) = (ck imax (a - b) >>= _)
      rw [this]

theorem shift_addFlow (s : Flow D) (e : Nat) (x : D) :
    addFlowOfEdge (s.shift c) e x = (addFlowOfEdge s e x).map (shift c) := by
  unfold addFlowOfEdge
  refine sim_bind' rfl fun f _ => sim_bind' rfl fun fl _ => sim_bind' rfl fun f _ => sim_bind' rfl fun fl _ => rfl

theorem shift_link (fuel : Nat) (s : Flow D) (p : Nat) : link imax fuel (s.shift c) p = (link imax fuel s p).map (shift c) := by
  unfold link
  refine sim_bind' rfl fun g _ => sim_bind' rfl fun k _ => sim_bind' rfl fun e_id _ => sim_bind' rfl fun e _ =>
    sim_bind' rfl fun fa _ => sim_bind' ?_ fun v _ => sim_bind' rfl fun h _ => sim_bind' rfl fun h _ => rfl
  exact shift_q { s with fa := fa } e_id

theorem shift_cut (fuel : Nat) (s : Flow D) (p : Nat) : cut imax fuel (s.shift c) p = (cut imax fuel s p).map (shift c) := by
  unfold cut
  refine sim_bind' rfl fun fa _ => sim_bind' rfl fun h _ => sim_bind' rfl fun g _ => sim_bind' rfl fun k _ =>
    sim_bind' rfl fun e_id _ => sim_bind' ?_ fun v _ => sim_bind' rfl fun wh _ => ?_
  · exact shift_q { s with fa := fa, nodes := h } e_id
  · exact shift_addFlow { s with fa := fa, nodes := wh.2 } _ _

theorem shift_enqueue (s : Flow D) (i : Nat) : enqueueActive (s.shift c) i = (enqueueActive s i).map (shift c) := by
  unfold enqueueActive
  refine sim_bind' rfl fun b _ => ?_
  split
  · exact sim_bind' rfl fun uq _ => rfl
  · rfl

theorem shift_sendPush (fuel : Nat) (s : Flow D) (p root : Nat) (x : D) :
    sendPush fuel (s.shift c) p root x = (sendPush fuel s p root x).map (shift c) := by
  unfold sendPush
  refine sim_bind' rfl fun h _ => sim_bind' rfl fun bp _ => sim_bind' rfl fun im _ => sim_bind' rfl fun br _ =>
    sim_bind' rfl fun im _ => ?_
  exact shift_enqueue { s with nodes := h, imbalances := im } root

theorem shift_sendLoop (fuel0 : Nat) (p : Nat) : ∀ (fuel : Nat) (s : Flow D) (root : Nat),
    sendLoop imax fuel0 p fuel (s.shift c) root = (sendLoop imax fuel0 p fuel s root).map (shift c) := by
  intro fuel
  induction fuel with
  | zero => intro s root; rfl
  | succ fuel ih =>
    intro s root
    unfold sendLoop
    split
    · refine sim_bind' rfl fun mh _ => sim_bind' rfl fun bp _ => ?_
      split
      · exact shift_sendPush fuel0 { s with nodes := mh.2 } _ _ _
      · refine sim_bind (shift_sendPush fuel0 { s with nodes := mh.2 } _ _ _) fun s' _ =>
          sim_bind' rfl fun r _ => sim_bind (shift_cut _ _ _) fun s'' _ => ih _ _
    · rfl

theorem shift_send (fuel : Nat) (s : Flow D) (p : Nat) : send imax fuel (s.shift c) p = (send imax fuel s p).map (shift c) := by
  unfold send
  exact sim_bind' rfl fun rh _ => shift_sendLoop fuel p fuel { s with nodes := rh.2 } rh.1

theorem shift_cutChildren (fuel : Nat) (p : Nat) : ∀ (es : List Nat) (s : Flow D),
    cutChildren imax fuel p es (s.shift c) = (cutChildren imax fuel p es s).map (shift c) := by
  intro es
  induction es with
  | nil => intro s; rfl
  | cons e es ih =>
    intro s
    unfold cutChildren
    refine sim_bind' rfl fun e _ => sim_bind' rfl fun f _ => ?_
    dsimp only
    split
    · exact sim_bind (shift_cut _ _ _) fun s' _ => ih s'
    · exact ih s

theorem shift_updateScaling {fuel : Nat} {s s' : Flow D} {p : Nat} (h : updateScaling imax fuel s p = .ok s') :
    updateScaling imax fuel (s.shift c) p = .error .overflow ∨ updateScaling imax fuel (s.shift c) p = .ok (s'.shift c) := by
  unfold updateScaling at h ⊢
  obtain ⟨g, hg, h⟩ := bind_eq_ok.1 h
  obtain ⟨s1, h1, h⟩ := bind_eq_ok.1 h
  obtain ⟨v, hv, h⟩ := bind_eq_ok.1 h
  obtain ⟨v', hv', h⟩ := bind_eq_ok.1 h
  obtain ⟨sc, hsc, h⟩ := bind_eq_ok.1 h
  obtain ⟨ce, hce, h⟩ := bind_eq_ok.1 h
  cases h
  have e1 : (s.shift c).G = s.G := rfl
  have e2 : (s1.shift c).epsilon = s1.epsilon := rfl
  have e3 : (s1.shift c).currentEdge = s1.currentEdge := rfl
  have e4 : (s1.shift c).scaling = raise c s1.scaling := rfl
  rw [e1, hg, ok_bind, shift_cutChildren, h1, map_ok, ok_bind, e2, e3, e4, raise_rd, hv, map_ok, ok_bind]
  have hv'' : v' = v + s1.epsilon.tdiv 2 := by
    unfold ck at hv'; split at hv' <;> cases hv'; rfl
  by_cases hc : -imax - 1 ≤ v + c + s1.epsilon.tdiv 2 ∧ v + c + s1.epsilon.tdiv 2 ≤ imax
  · right
    unfold Vec.wr at hsc
    split at hsc
    · rename_i hp
      cases hsc
      rw [ck, if_pos hc, ok_bind, Vec.wr, if_pos (show p < (raise c s1.scaling).size from hp), ok_bind, hce, ok_bind]
      have : v + c + s1.epsilon.tdiv 2 = v' + c := by omega
      rw [this, raise_set c s1.scaling p v' hp]
      rfl
    · cases hsc
  · left
    rw [ck, if_neg hc]; rfl

theorem shift_choiceLoop (fuel0 : Nat) (p : Nat) : ∀ {fuel : Nat} {s s' : Flow D},
    choiceLoop imax fuel0 p fuel s = .ok s' →
    choiceLoop imax fuel0 p fuel (s.shift c) = .error .overflow ∨ choiceLoop imax fuel0 p fuel (s.shift c) = .ok (s'.shift c) := by
  intro fuel
  induction fuel with
  | zero => intro s s' h; cases h
  | succ fuel ih =>
    intro s s' h
    unfold choiceLoop at h ⊢
    obtain ⟨k, hk, h⟩ := bind_eq_ok.1 h
    obtain ⟨g, hg, h⟩ := bind_eq_ok.1 h
    have e1 : (s.shift c).G = s.G := rfl
    have e3 : (s.shift c).currentEdge = s.currentEdge := rfl
    rw [e1, e3, hk, ok_bind, hg, ok_bind]
    split at h
    · rename_i hl
      rw [if_pos hl]
      obtain ⟨e_id, he, h⟩ := bind_eq_ok.1 h
      obtain ⟨x, hx, h⟩ := bind_eq_ok.1 h
      rw [he, ok_bind, shift_q, hx, ok_bind]
      split at h
      · rename_i h0
        rw [if_pos h0]
        obtain ⟨s1, h1, h⟩ := bind_eq_ok.1 h
        right
        rw [shift_link, h1, map_ok, ok_bind, shift_send, h, map_ok]
      · rename_i h0
        rw [if_neg h0]
        obtain ⟨ce, hc, h⟩ := bind_eq_ok.1 h
        rw [hc, ok_bind]
        exact ih h
    · rename_i hl
      rw [if_neg hl]
      exact shift_updateScaling h

/-- The same step with raised potentials. -/
theorem shift_refineStep {fuel : Nat} {s s' : Flow D} (h : refineStep imax fuel s = .ok s') :
    refineStep imax fuel (s.shift c) = .error .overflow ∨ refineStep imax fuel (s.shift c) = .ok (s'.shift c) := by
  unfold refineStep at h ⊢
  obtain ⟨p, hp, h⟩ := bind_eq_ok.1 h
  obtain ⟨s1, h1, h⟩ := bind_eq_ok.1 h
  obtain ⟨p', hp', h⟩ := bind_eq_ok.1 h
  obtain ⟨b, hb, h⟩ := bind_eq_ok.1 h
  have e1 : (s.shift c).uq = s.uq := rfl
  rw [e1, hp, ok_bind]
  rcases shift_choiceLoop (c := c) fuel p h1 with h2 | h2
  · left
    unfold choiceOperator
    rw [h2]; rfl
  · right
    unfold choiceOperator
    have e2 : (s1.shift c).uq = s1.uq := rfl
    have e3 : (s1.shift c).imbalances = s1.imbalances := rfl
    rw [h2, ok_bind, e2, hp', ok_bind, e3, hb, ok_bind]
    split at h
    · rename_i h0
      rw [if_pos h0]
      obtain ⟨uq, hu, h⟩ := bind_eq_ok.1 h
      rw [hu, ok_bind]
      cases h
      rfl
    · rename_i h0
      rw [if_neg h0]
      cases h
      rfl

/-! ### Potentials stay representable -/

theorem addFlow_scaling {s s' : Flow D} {e : Nat} {x : D} (h : addFlowOfEdge s e x = .ok s') : s'.scaling = s.scaling := by
  unfold addFlowOfEdge at h
  obtain ⟨_, -, h⟩ := bind_eq_ok.1 h
  obtain ⟨_, -, h⟩ := bind_eq_ok.1 h
  obtain ⟨_, -, h⟩ := bind_eq_ok.1 h
  obtain ⟨_, -, h⟩ := bind_eq_ok.1 h
  cases h; rfl

theorem link_scaling {fuel : Nat} {s s' : Flow D} {p : Nat} (h : link imax fuel s p = .ok s') : s'.scaling = s.scaling := by
  unfold link at h
  obtain ⟨_, -, h⟩ := bind_eq_ok.1 h
  obtain ⟨_, -, h⟩ := bind_eq_ok.1 h
  obtain ⟨_, -, h⟩ := bind_eq_ok.1 h
  obtain ⟨_, -, h⟩ := bind_eq_ok.1 h
  obtain ⟨_, -, h⟩ := bind_eq_ok.1 h
  obtain ⟨_, -, h⟩ := bind_eq_ok.1 h
  obtain ⟨_, -, h⟩ := bind_eq_ok.1 h
  obtain ⟨_, -, h⟩ := bind_eq_ok.1 h
  cases h; rfl

theorem cut_scaling {fuel : Nat} {s s' : Flow D} {p : Nat} (h : cut imax fuel s p = .ok s') : s'.scaling = s.scaling := by
  unfold cut at h
  obtain ⟨_, -, h⟩ := bind_eq_ok.1 h
  obtain ⟨_, -, h⟩ := bind_eq_ok.1 h
  obtain ⟨_, -, h⟩ := bind_eq_ok.1 h
  obtain ⟨_, -, h⟩ := bind_eq_ok.1 h
  obtain ⟨_, -, h⟩ := bind_eq_ok.1 h
  obtain ⟨_, -, h⟩ := bind_eq_ok.1 h
  obtain ⟨wh, -, h⟩ := bind_eq_ok.1 h
  exact addFlow_scaling (s := { s with fa := _, nodes := wh.2 }) h

theorem enqueue_scaling {s s' : Flow D} {i : Nat} (h : enqueueActive s i = .ok s') : s'.scaling = s.scaling := by
  unfold enqueueActive at h
  obtain ⟨_, -, h⟩ := bind_eq_ok.1 h
  split at h
  · obtain ⟨_, -, h⟩ := bind_eq_ok.1 h
    cases h; rfl
  · cases h; rfl

theorem sendPush_scaling {fuel : Nat} {s s' : Flow D} {p r : Nat} {x : D} (h : sendPush fuel s p r x = .ok s') :
    s'.scaling = s.scaling := by
  unfold sendPush at h
  obtain ⟨_, -, h⟩ := bind_eq_ok.1 h
  obtain ⟨_, -, h⟩ := bind_eq_ok.1 h
  obtain ⟨_, -, h⟩ := bind_eq_ok.1 h
  obtain ⟨_, -, h⟩ := bind_eq_ok.1 h
  obtain ⟨im, -, h⟩ := bind_eq_ok.1 h
  exact enqueue_scaling (s := { s with nodes := _, imbalances := im }) h

theorem sendLoop_scaling {fuel0 : Nat} {p : Nat} : ∀ {fuel : Nat} {s s' : Flow D} {r : Nat},
    sendLoop imax fuel0 p fuel s r = .ok s' → s'.scaling = s.scaling := by
  intro fuel
  induction fuel with
  | zero => intro s s' r h; cases h
  | succ fuel ih =>
    intro s s' r h
    unfold sendLoop at h
    split at h
    · obtain ⟨⟨m, nodes⟩, -, h⟩ := bind_eq_ok.1 h
      obtain ⟨_, -, h⟩ := bind_eq_ok.1 h
      split at h
      · exact (sendPush_scaling h :)
      · obtain ⟨_, h1, h⟩ := bind_eq_ok.1 h
        obtain ⟨_, -, h⟩ := bind_eq_ok.1 h
        obtain ⟨_, h2, h⟩ := bind_eq_ok.1 h
        exact (ih h).trans ((cut_scaling h2).trans (sendPush_scaling h1 :))
    · cases h; rfl

theorem send_scaling {fuel : Nat} {s s' : Flow D} {p : Nat} (h : send imax fuel s p = .ok s') : s'.scaling = s.scaling := by
  unfold send at h
  obtain ⟨⟨root, nodes⟩, -, h⟩ := bind_eq_ok.1 h
  exact (sendLoop_scaling h :)

theorem cutChildren_scaling {fuel p : Nat} : ∀ {es : List Nat} {s s' : Flow D},
    cutChildren imax fuel p es s = .ok s' → s'.scaling = s.scaling := by
  intro es
  induction es with
  | nil => intro s s' h; cases h; rfl
  | cons e es ih =>
    intro s s' h
    unfold cutChildren at h
    obtain ⟨_, -, h⟩ := bind_eq_ok.1 h
    obtain ⟨_, -, h⟩ := bind_eq_ok.1 h
    dsimp only at h
    split at h
    · obtain ⟨_, h1, h⟩ := bind_eq_ok.1 h
      exact (ih h).trans (cut_scaling h1)
    · exact ih h

/-- all potentials are at most `imax` -/
def Bounded (imax : Int) (s : Flow D) : Prop := ∀ k, k < s.scaling.size → s.scaling.get k ≤ imax

theorem updateScaling_bounded {fuel : Nat} {s s' : Flow D} {p : Nat} (hs : Bounded imax s)
    (h : updateScaling imax fuel s p = .ok s') : Bounded imax s' := by
  unfold updateScaling at h
  obtain ⟨g, hg, h⟩ := bind_eq_ok.1 h
  obtain ⟨s1, h1, h⟩ := bind_eq_ok.1 h
  obtain ⟨v, hv, h⟩ := bind_eq_ok.1 h
  obtain ⟨v', hv', h⟩ := bind_eq_ok.1 h
  obtain ⟨sc, hsc, h⟩ := bind_eq_ok.1 h
  obtain ⟨ce, hce, h⟩ := bind_eq_ok.1 h
  cases h
  have e := cutChildren_scaling h1
  have hv2 : v' ≤ imax := by
    unfold ck at hv'
    split at hv'
    · rename_i hb; cases hv'; exact hb.2
    · cases hv'
  unfold Vec.wr at hsc
  split at hsc
  · cases hsc
    intro k hk
    show (s1.scaling.set p v').get k ≤ imax
    simp only [Vec.set]
    split
    · exact hv2
    · rw [e]
      refine hs k ?_
      rw [← e]; exact hk
  · cases hsc

theorem choiceLoop_bounded {fuel0 p : Nat} : ∀ {fuel : Nat} {s s' : Flow D}, Bounded imax s →
    choiceLoop imax fuel0 p fuel s = .ok s' → Bounded imax s' := by
  intro fuel
  induction fuel with
  | zero => intro s s' _ h; cases h
  | succ fuel ih =>
    intro s s' hs h
    unfold choiceLoop at h
    obtain ⟨k, -, h⟩ := bind_eq_ok.1 h
    obtain ⟨g, -, h⟩ := bind_eq_ok.1 h
    split at h
    · obtain ⟨_, -, h⟩ := bind_eq_ok.1 h
      obtain ⟨_, -, h⟩ := bind_eq_ok.1 h
      split at h
      · obtain ⟨_, h1, h⟩ := bind_eq_ok.1 h
        have := (send_scaling h).trans (link_scaling h1)
        unfold Bounded
        rw [this]
        exact hs
      · obtain ⟨ce, -, h⟩ := bind_eq_ok.1 h
        exact ih (s := { s with currentEdge := ce }) hs h
    · exact updateScaling_bounded hs h

theorem refineStep_bounded {fuel : Nat} {s s' : Flow D} (hs : Bounded imax s) (h : refineStep imax fuel s = .ok s') :
    Bounded imax s' := by
  unfold refineStep at h
  obtain ⟨p, -, h⟩ := bind_eq_ok.1 h
  obtain ⟨s1, h1, h⟩ := bind_eq_ok.1 h
  have := choiceLoop_bounded hs h1
  obtain ⟨_, -, h⟩ := bind_eq_ok.1 h
  obtain ⟨_, -, h⟩ := bind_eq_ok.1 h
  split at h
  · obtain ⟨_, -, h⟩ := bind_eq_ok.1 h
    cases h; exact this
  · cases h; exact this

/-! ### What never changes -/

/-- the members which no step changes -/
def core (s : Flow D) : Nat × D × Int × Vec (OmegaLimit D) × Vec (List Nat) := (s.n, s.M, s.epsilon, s.edges, s.G)

theorem addFlow_core {s s' : Flow D} {e : Nat} {x : D} (h : addFlowOfEdge s e x = .ok s') : s'.core = s.core := by
  unfold addFlowOfEdge at h
  obtain ⟨_, -, h⟩ := bind_eq_ok.1 h
  obtain ⟨_, -, h⟩ := bind_eq_ok.1 h
  obtain ⟨_, -, h⟩ := bind_eq_ok.1 h
  obtain ⟨_, -, h⟩ := bind_eq_ok.1 h
  cases h; rfl

theorem link_core {fuel : Nat} {s s' : Flow D} {p : Nat} (h : link imax fuel s p = .ok s') : s'.core = s.core := by
  unfold link at h
  obtain ⟨_, -, h⟩ := bind_eq_ok.1 h
  obtain ⟨_, -, h⟩ := bind_eq_ok.1 h
  obtain ⟨_, -, h⟩ := bind_eq_ok.1 h
  obtain ⟨_, -, h⟩ := bind_eq_ok.1 h
  obtain ⟨_, -, h⟩ := bind_eq_ok.1 h
  obtain ⟨_, -, h⟩ := bind_eq_ok.1 h
  obtain ⟨_, -, h⟩ := bind_eq_ok.1 h
  obtain ⟨_, -, h⟩ := bind_eq_ok.1 h
  cases h; rfl

theorem cut_core {fuel : Nat} {s s' : Flow D} {p : Nat} (h : cut imax fuel s p = .ok s') : s'.core = s.core := by
  unfold cut at h
  obtain ⟨_, -, h⟩ := bind_eq_ok.1 h
  obtain ⟨_, -, h⟩ := bind_eq_ok.1 h
  obtain ⟨_, -, h⟩ := bind_eq_ok.1 h
  obtain ⟨_, -, h⟩ := bind_eq_ok.1 h
  obtain ⟨_, -, h⟩ := bind_eq_ok.1 h
  obtain ⟨_, -, h⟩ := bind_eq_ok.1 h
  obtain ⟨wh, -, h⟩ := bind_eq_ok.1 h
  exact addFlow_core (s := { s with fa := _, nodes := wh.2 }) h

theorem enqueue_core {s s' : Flow D} {i : Nat} (h : enqueueActive s i = .ok s') : s'.core = s.core := by
  unfold enqueueActive at h
  obtain ⟨_, -, h⟩ := bind_eq_ok.1 h
  split at h
  · obtain ⟨_, -, h⟩ := bind_eq_ok.1 h
    cases h; rfl
  · cases h; rfl

theorem sendPush_core {fuel : Nat} {s s' : Flow D} {p r : Nat} {x : D} (h : sendPush fuel s p r x = .ok s') :
    s'.core = s.core := by
  unfold sendPush at h
  obtain ⟨_, -, h⟩ := bind_eq_ok.1 h
  obtain ⟨_, -, h⟩ := bind_eq_ok.1 h
  obtain ⟨_, -, h⟩ := bind_eq_ok.1 h
  obtain ⟨_, -, h⟩ := bind_eq_ok.1 h
  obtain ⟨im, -, h⟩ := bind_eq_ok.1 h
  exact enqueue_core (s := { s with nodes := _, imbalances := im }) h

theorem sendLoop_core {fuel0 : Nat} {p : Nat} : ∀ {fuel : Nat} {s s' : Flow D} {r : Nat},
    sendLoop imax fuel0 p fuel s r = .ok s' → s'.core = s.core := by
  intro fuel
  induction fuel with
  | zero => intro s s' r h; cases h
  | succ fuel ih =>
    intro s s' r h
    unfold sendLoop at h
    split at h
    · obtain ⟨⟨m, nodes⟩, -, h⟩ := bind_eq_ok.1 h
      obtain ⟨_, -, h⟩ := bind_eq_ok.1 h
      split at h
      · exact (sendPush_core h :)
      · obtain ⟨_, h1, h⟩ := bind_eq_ok.1 h
        obtain ⟨_, -, h⟩ := bind_eq_ok.1 h
        obtain ⟨_, h2, h⟩ := bind_eq_ok.1 h
        exact (ih h).trans ((cut_core h2).trans (sendPush_core h1 :))
    · cases h; rfl

theorem send_core {fuel : Nat} {s s' : Flow D} {p : Nat} (h : send imax fuel s p = .ok s') : s'.core = s.core := by
  unfold send at h
  obtain ⟨⟨root, nodes⟩, -, h⟩ := bind_eq_ok.1 h
  exact (sendLoop_core h :)

theorem cutChildren_core {fuel p : Nat} : ∀ {es : List Nat} {s s' : Flow D},
    cutChildren imax fuel p es s = .ok s' → s'.core = s.core := by
  intro es
  induction es with
  | nil => intro s s' h; cases h; rfl
  | cons e es ih =>
    intro s s' h
    unfold cutChildren at h
    obtain ⟨_, -, h⟩ := bind_eq_ok.1 h
    obtain ⟨_, -, h⟩ := bind_eq_ok.1 h
    dsimp only at h
    split at h
    · obtain ⟨_, h1, h⟩ := bind_eq_ok.1 h
      exact (ih h).trans (cut_core h1)
    · exact ih h

theorem updateScaling_core {fuel : Nat} {s s' : Flow D} {p : Nat} (h : updateScaling imax fuel s p = .ok s') : s'.core = s.core := by
  unfold updateScaling at h
  obtain ⟨g, hg, h⟩ := bind_eq_ok.1 h
  obtain ⟨s1, h1, h⟩ := bind_eq_ok.1 h
  obtain ⟨v, hv, h⟩ := bind_eq_ok.1 h
  obtain ⟨v', hv', h⟩ := bind_eq_ok.1 h
  obtain ⟨sc, hsc, h⟩ := bind_eq_ok.1 h
  obtain ⟨ce, hce, h⟩ := bind_eq_ok.1 h
  cases h
  exact (cutChildren_core h1 :)

theorem choiceLoop_core {fuel0 p : Nat} : ∀ {fuel : Nat} {s s' : Flow D},
    choiceLoop imax fuel0 p fuel s = .ok s' → s'.core = s.core := by
  intro fuel
  induction fuel with
  | zero => intro s s' h; cases h
  | succ fuel ih =>
    intro s s' h
    unfold choiceLoop at h
    obtain ⟨k, -, h⟩ := bind_eq_ok.1 h
    obtain ⟨g, -, h⟩ := bind_eq_ok.1 h
    split at h
    · obtain ⟨_, -, h⟩ := bind_eq_ok.1 h
      obtain ⟨_, -, h⟩ := bind_eq_ok.1 h
      split at h
      · obtain ⟨_, h1, h⟩ := bind_eq_ok.1 h
        exact (send_core h).trans (link_core h1)
      · obtain ⟨ce, -, h⟩ := bind_eq_ok.1 h
        exact (ih h :)
    · exact updateScaling_core h

theorem refineStep_core {fuel : Nat} {s s' : Flow D} (h : refineStep imax fuel s = .ok s') : s'.core = s.core := by
  unfold refineStep at h
  obtain ⟨p, -, h⟩ := bind_eq_ok.1 h
  obtain ⟨s1, h1, h⟩ := bind_eq_ok.1 h
  have := choiceLoop_core h1
  obtain ⟨_, -, h⟩ := bind_eq_ok.1 h
  obtain ⟨_, -, h⟩ := bind_eq_ok.1 h
  split at h
  · obtain ⟨_, -, h⟩ := bind_eq_ok.1 h
    cases h; exact this
  · cases h; exact this

/-! ### A state that comes back -/

/-- `k` rounds of the loop of `Flow::refine` lead from `s` to `t` -/
inductive Rounds (imax : Int) (fuel : Nat) : Nat → Flow D → Flow D → Prop
  | zero (s : Flow D) : Rounds imax fuel 0 s s
  | succ {k : Nat} {s s' t : Flow D} (h1 : s.uq.empty = false) (h2 : refineStep imax fuel s = .ok s')
      (h3 : Rounds imax fuel k s' t) : Rounds imax fuel (k + 1) s t

/-- the loop of `Flow::refine` -/
def refineLoop (imax : Int) (fuel f : Nat) (s : Flow D) : Res (Flow D) :=
  whileLoop (fun s : Flow D => .ok (!s.uq.empty)) (refineStep imax fuel) f s

theorem refineLoop_succ {fuel f : Nat} {s : Flow D} (h : s.uq.empty = false) :
    refineLoop imax fuel (f + 1) s = refineStep imax fuel s >>= refineLoop imax fuel f := by
  unfold refineLoop
  conv_lhs => unfold whileLoop
  simp only [h, ok_bind, Bool.not_false, if_true]

theorem Rounds.mono {fuel fuel' : Nat} (hf : fuel ≤ fuel') {k : Nat} {s t : Flow D} (h : Rounds imax fuel k s t) :
    Rounds imax fuel' k s t := by
  induction h with
  | zero s => exact .zero s
  | @succ k s s' t h1 h2 _ ih =>
    refine .succ h1 ?_ ih
    rcases refineStep_le (imax := imax) hf s with h | h
    · rw [h2] at h; cases h
    · rw [← h, h2]

/-- rounds done by the loop -/
theorem Rounds.loop {fuel k : Nat} {s t : Flow D} (h : Rounds imax fuel k s t) (f : Nat) :
    refineLoop imax fuel (f + k) s = refineLoop imax fuel f t := by
  induction h with
  | zero s => rfl
  | succ h1 h2 _ ih => rw [← Nat.add_assoc, refineLoop_succ h1, h2, ok_bind, ih]

/-- rounds with raised potentials -/
theorem Rounds.shift {fuel k : Nat} {s t : Flow D} (h : Rounds imax fuel k s t) (c : Int) (hb : Bounded imax (s.shift c)) (f : Nat) :
    refineLoop imax fuel (f + k) (s.shift c) = .error .overflow ∨
    (refineLoop imax fuel (f + k) (s.shift c) = refineLoop imax fuel f (t.shift c) ∧ Bounded imax (t.shift c)) := by
  induction h with
  | zero s => exact .inr ⟨rfl, hb⟩
  | @succ k s s' t h1 h2 h3 ih =>
    rw [← Nat.add_assoc, refineLoop_succ (s := s.shift c) h1]
    rcases shift_refineStep (c := c) h2 with h | h
    · left; rw [h]; rfl
    · rw [h, ok_bind]
      exact ih (refineStep_bounded hb h)

theorem shift_shift (a b : Int) (s : Flow D) : (s.shift a).shift b = s.shift (a + b) := by
  have : raise b (raise a s.scaling) = raise (a + b) s.scaling := by
    simp only [raise, Vec.mk.injEq, true_and]
    funext k
    split
    · omega
    · rfl
  simp only [shift, this]

theorem shift_zero (s : Flow D) : s.shift 0 = s := by
  have : raise 0 s.scaling = s.scaling := by
    simp [raise]
  simp only [shift, this]

/-- If `k` rounds reproduce the state with raised potentials then the loop ends with an overflow. -/
theorem Rounds.overflow {fuel k : Nat} {s : Flow D} {c : Int} (h : Rounds imax fuel k s (s.shift c)) (hc : 0 < c)
    (h0 : 0 < s.scaling.size) (hs : 0 ≤ s.scaling.get 0) : ∀ (m : Nat) (d : Int), imax < d + m * c → Bounded imax (s.shift d) →
    ∀ f, refineLoop imax fuel (f + k * m) (s.shift d) = .error .overflow := by
  intro m
  induction m with
  | zero =>
    intro d hd hb
    have := hb 0 h0
    simp only [Flow.shift, raise, if_pos h0] at this
    simp at hd
    omega
  | succ m ih =>
    intro d hd hb f
    rw [Nat.mul_succ, ← Nat.add_assoc]
    rcases h.shift d hb (f + k * m) with h' | ⟨h', hb'⟩
    · exact h'
    · rw [h']
      rw [shift_shift] at hb' ⊢
      refine ih (c + d) ?_ hb' f
      push_cast at hd
      rw [Int.add_mul, Int.one_mul] at hd
      omega

/-! ### With a wider `int` -/

theorem Rounds.core {fuel k : Nat} {s t : Flow D} (h : Rounds imax fuel k s t) : t.core = s.core := by
  induction h with
  | zero s => rfl
  | succ _ h2 _ ih => exact ih.trans (refineStep_core h2)

theorem Rounds.wid {imax' : Int} (hi : imax ≤ imax') {fuel k : Nat} {s t s' : Flow D} (h : Rounds imax fuel k s t) (hs : WF s s') :
    ∃ t', Rounds imax' fuel k s' t' ∧ WF t t' := by
  induction h generalizing s' with
  | zero s => exact ⟨s', .zero s', hs⟩
  | @succ k s s1 t h1 h2 h3 ih =>
    have hw := refineStep_wid hi fuel hs
    rw [h2] at hw
    generalize hy : refineStep imax' fuel s' = y at hw
    cases hw with
    | @ok _ s1' hw =>
      obtain ⟨t', h4, h5⟩ := ih hw
      refine ⟨t', .succ ?_ hy h4, h5⟩
      rw [hs.eq]; exact h1

/-- the state comes back also with a wider `int` -/
theorem Rounds.wid_shift {imax' : Int} (hi : imax ≤ imax') {fuel k : Nat} {s s' : Flow D} {c : Int}
    (h : Rounds imax fuel k s (s.shift c)) (hs : WF s s') : Rounds imax' fuel k s' (s'.shift c) := by
  obtain ⟨t', h1, h2⟩ := h.wid hi hs
  have hE : t'.edges = s'.edges := by
    have := h1.core
    simp only [Flow.core, Prod.mk.injEq] at this
    exact this.2.2.2.1
  have : t' = s'.shift c := by
    rw [h2.eq, hs.eq, hE]; rfl
  rw [← this]; exact h1

/-! ### Checking that a state comes back -/

/-- `k` rounds, by evaluation -/
def rounds (imax : Int) (fuel : Nat) : Nat → Flow D → Res (Flow D)
  | 0, s => .ok s
  | k + 1, s => if s.uq.empty then .error .emptyQueue else refineStep imax fuel s >>= rounds imax fuel k

theorem rounds_sound {fuel : Nat} : ∀ {k : Nat} {s t : Flow D}, rounds imax fuel k s = .ok t → Rounds imax fuel k s t := by
  intro k
  induction k with
  | zero => intro s t h; cases h; exact .zero _
  | succ k ih =>
    intro s t h
    unfold rounds at h
    split at h
    · cases h
    · rename_i he
      obtain ⟨s1, h1, h⟩ := bind_eq_ok.1 h
      exact .succ (by simpa using he) h1 (ih h)

deriving instance DecidableEq for LNode

/-- the entries at `k` agree, up to the summand `c` of the potentials -/
def sameAt [DecidableEq D] (c : Int) (s t : Flow D) (k : Nat) : Bool :=
  decide (t.nodes.get k = s.nodes.get k) && decide (t.imbalances.get k = s.imbalances.get k) &&
  decide (t.currentEdge.get k = s.currentEdge.get k) && decide (t.uq.isIn.get k = s.uq.isIn.get k) &&
  decide (t.fa.get k = s.fa.get k) && decide (t.flows.get k = s.flows.get k) &&
  decide (t.scaling.get k = if k < s.scaling.size then s.scaling.get k + c else s.scaling.get k)

/-- the sizes and the queue agree -/
def sameSize (s t : Flow D) : Bool :=
  decide (t.nodes.size = s.nodes.size) && decide (t.imbalances.size = s.imbalances.size) &&
  decide (t.currentEdge.size = s.currentEdge.size) && decide (t.uq.isIn.size = s.uq.isIn.size) &&
  decide (t.fa.size = s.fa.size) && decide (t.flows.size = s.flows.size) && decide (t.scaling.size = s.scaling.size) &&
  decide (t.uq.queue = s.uq.queue)

theorem _root_.AHO.Vec.eq_of {α : Type} {v w : Vec α} (h : v.size = w.size) (h' : ∀ k, v.get k = w.get k) : v = w := by
  obtain ⟨n, f⟩ := v
  obtain ⟨m, g⟩ := w
  cases h
  have : f = g := funext h'
  rw [this]

theorem eq_shift [DecidableEq D] {c : Int} {s t : Flow D} (h : sameSize s t = true) (h' : ∀ k, sameAt c s t k = true)
    (hc : t.core = s.core) : t = s.shift c := by
  simp only [sameSize, sameAt, Bool.and_eq_true, decide_eq_true_eq] at h h'
  simp only [core, Prod.mk.injEq] at hc
  obtain ⟨c1, c2, c3, c4, c5⟩ := hc
  obtain ⟨⟨⟨⟨⟨⟨⟨z1, z2⟩, z3⟩, z4⟩, z5⟩, z6⟩, z7⟩, z8⟩ := h
  have e1 : t.nodes = s.nodes := Vec.eq_of z1 fun k => (h' k).1.1.1.1.1.1
  have e2 : t.imbalances = s.imbalances := Vec.eq_of z2 fun k => (h' k).1.1.1.1.1.2
  have e3 : t.currentEdge = s.currentEdge := Vec.eq_of z3 fun k => (h' k).1.1.1.1.2
  have e4 : t.uq.isIn = s.uq.isIn := Vec.eq_of z4 fun k => (h' k).1.1.1.2
  have e5 : t.fa = s.fa := Vec.eq_of z5 fun k => (h' k).1.1.2
  have e6 : t.flows = s.flows := Vec.eq_of z6 fun k => (h' k).1.2
  have e7 : t.scaling = raise c s.scaling := Vec.eq_of z7 fun k => (h' k).2
  obtain ⟨n, M, ep, no, im, ce, ⟨qu, ii⟩, fa, ed, fl, G, sc⟩ := t
  dsimp only at *
  subst c1 c2 c3 c4 c5 e1 e2 e3 e4 e5 e6 e7 z8
  rfl

end Flow
end AHO
