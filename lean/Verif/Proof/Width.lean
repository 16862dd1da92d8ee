import Verif.Model.Solver
import Verif.Proof.Basic
import Mathlib.Data.List.Forall2
import Mathlib.Data.List.GetD
/-!
# A wider `int` changes nothing except that overflows may disappear

`Wid R x y`: the execution `x` overflowed, or `x` and `y` ended in the same way, with results related by `R`.
-/

namespace AHO
set_option linter.unusedSectionVars false

/-- `y` is like `x`, or `x` overflowed -/
inductive Wid {α β : Type} (R : α → β → Prop) : Res α → Res β → Prop
  | over (y : Res β) : Wid R (.error .overflow) y
  | err (e : Err) : Wid R (.error e) (.error e)
  | ok {a : α} {b : β} (h : R a b) : Wid R (.ok a) (.ok b)

theorem Wid.refl {α : Type} (x : Res α) : Wid Eq x x := by
  cases x with
  | error e => exact .err e
  | ok a => exact .ok rfl

theorem Wid.bind {α β γ δ : Type} {R : α → β → Prop} {S : γ → δ → Prop} {x : Res α} {y : Res β} {f : α → Res γ} {g : β → Res δ}
    (h : Wid R x y) (h' : ∀ a b, R a b → Wid S (f a) (g b)) : Wid S (x >>= f) (y >>= g) := by
  cases h with
  | over y => exact .over _
  | err e => exact .err e
  | ok h => exact h' _ _ h

/-- the first part is the same -/
theorem Wid.bind' {α γ δ : Type} {S : γ → δ → Prop} {x : Res α} {f : α → Res γ} {g : α → Res δ}
    (h' : ∀ a, Wid S (f a) (g a)) : Wid S (x >>= f) (x >>= g) := by
  cases x with
  | error e => exact .err e
  | ok a => exact h' a

/-- the first parts give the same value -/
theorem Wid.bindEq {α γ δ : Type} {S : γ → δ → Prop} {x y : Res α} {f : α → Res γ} {g : α → Res δ} (h : Wid Eq x y)
    (h' : ∀ a, Wid S (f a) (g a)) : Wid S (x >>= f) (y >>= g) := by
  refine h.bind fun a b e => ?_
  subst e
  exact h' a

theorem Wid.whileLoop {σ τ : Type} {R : σ → τ → Prop} {c : σ → Res Bool} {c' : τ → Res Bool} {b : σ → Res σ} {b' : τ → Res τ}
    (hc : ∀ s t, R s t → Wid Eq (c s) (c' t)) (hb : ∀ s t, R s t → Wid R (b s) (b' t)) :
    ∀ (f : Nat) (s : σ) (t : τ), R s t → Wid R (whileLoop c b f s) (whileLoop c' b' f t) := by
  intro f
  induction f with
  | zero => intro s t _; exact .err _
  | succ f ih =>
    intro s t h
    unfold AHO.whileLoop
    refine (hc s t h).bindEq fun x => ?_
    split
    · exact (hb s t h).bind fun s' t' h' => ih s' t' h'
    · exact .ok h

theorem Wid.forRange {σ τ : Type} {R : σ → τ → Prop} {b : σ → Nat → Res σ} {b' : τ → Nat → Res τ}
    (hb : ∀ s t i, R s t → Wid R (b s i) (b' t i)) : ∀ (cnt lo : Nat) (s : σ) (t : τ), R s t →
      Wid R (forRange b lo cnt s) (forRange b' lo cnt t) := by
  intro cnt
  induction cnt with
  | zero => intro lo s t h; exact .ok h
  | succ cnt ih =>
    intro lo s t h
    unfold AHO.forRange
    exact (hb s t lo h).bind fun s' t' h' => ih (lo + 1) s' t' h'

variable {imax imax' : Int}

theorem ck_wid (hi : imax ≤ imax') (x : Int) : Wid Eq (ck imax x) (ck imax' x) := by
  unfold ck
  split
  · rw [if_pos (by omega)]; exact .ok rfl
  · exact .over _

/-! ### Limits -/

section
variable {D : Type}

/-- the same limit, where the callback may overflow more often -/
structure WE (e e' : OmegaLimit D) : Prop where
  l : e'.l = e.l
  u : e'.u = e.u
  i : e'.i = e.i
  j : e'.j = e.j
  fn : ∀ x, Wid Eq (e.fn x) (e'.fn x)

theorem WE.refl (e : OmegaLimit D) : WE e e := ⟨rfl, rfl, rfl, rfl, fun _ => .refl _⟩

/-- the same edges -/
structure WV (E E' : Vec (OmegaLimit D)) : Prop where
  size : E'.size = E.size
  get : ∀ k, WE (E.get k) (E'.get k)

theorem WV.rd {E E' : Vec (OmegaLimit D)} (h : WV E E') (k : Nat) : Wid WE (E.rd k) (E'.rd k) := by
  unfold Vec.rd
  rw [h.size]
  split
  · exact .ok (h.get k)
  · exact .err _

theorem WV.wr {E E' : Vec (OmegaLimit D)} (h : WV E E') (k : Nat) {e e' : OmegaLimit D} (he : WE e e') :
    Wid WV (E.wr k e) (E'.wr k e') := by
  unfold Vec.wr
  rw [h.size]
  split
  · refine .ok ⟨h.size, fun m => ?_⟩
    simp only [Vec.set]
    split
    · exact he
    · exact h.get m
  · exact .err _

variable [LT D] [DecidableLT D]

theorem partitionPoint_wid (hi : imax ≤ imax') {p p' : Int → Res Bool} (hp : ∀ x, Wid Eq (p x) (p' x)) : ∀ (f : Nat) (l r : Int),
    Wid Eq (partitionPoint imax p f l r) (partitionPoint imax' p' f l r) := by
  intro f
  induction f with
  | zero => intro l r; exact .err _
  | succ f ih =>
    intro l r
    unfold partitionPoint
    split
    · refine (ck_wid hi _).bindEq fun d => (ck_wid hi _).bindEq fun mid => (hp mid).bindEq fun b => ?_
      split
      · exact (ck_wid hi _).bindEq fun l' => ih _ _
      · exact ih _ _
    · exact .ok rfl

theorem descends_wid (hi : imax ≤ imax') {f f' : Fn D} (hf : ∀ x, Wid Eq (f x) (f' x)) (x : Int) :
    Wid Eq (descends imax f x) (descends imax' f' x) := by
  unfold descends
  exact (hf x).bindEq fun a => (ck_wid hi _).bindEq fun x1 => (hf x1).bindEq fun b => .refl _

theorem preProcessing_wid (hi : imax ≤ imax') {e e' : OmegaLimit D} (h : WE e e') (fuel : Nat) :
    Wid WE (e.preProcessing imax fuel) (e'.preProcessing imax' fuel) := by
  unfold OmegaLimit.preProcessing
  rw [h.l, h.u]
  refine (partitionPoint_wid hi (fun x => descends_wid hi h.fn x) fuel _ _).bindEq fun m => ?_
  exact .ok ⟨rfl, rfl, h.i, h.j, fun x => h.fn _⟩

theorem minimum_wid (hi : imax ≤ imax') {e e' : OmegaLimit D} (h : WE e e') (fuel : Nat) :
    Wid Eq (e.minimum imax fuel) (e'.minimum imax' fuel) := by
  unfold OmegaLimit.minimum
  rw [h.l, h.u]
  exact (partitionPoint_wid hi (fun x => descends_wid hi h.fn x) fuel _ _).bindEq fun m => h.fn m

omit [LT D] [DecidableLT D] in
theorem reverse_wid (hi : imax ≤ imax') {e e' : OmegaLimit D} (h : WE e e') : Wid WE (e.reverse imax) (e'.reverse imax') := by
  unfold OmegaLimit.reverse
  rw [h.l, h.u, h.i, h.j]
  refine (ck_wid hi _).bindEq fun l => (ck_wid hi _).bindEq fun u => .ok ⟨rfl, rfl, rfl, rfl, fun x => ?_⟩
  exact (ck_wid hi _).bindEq fun y => h.fn y

omit [LT D] [DecidableLT D] in
theorem merge_wid [Add D] {e e' o o' : OmegaLimit D} (h : WE e e') (h' : WE o o') :
    Wid (fun a b => WE a.1 b.1 ∧ a.2 = b.2) (e.merge o) (e'.merge o') := by
  unfold OmegaLimit.merge
  rw [h.l, h.u, h.i, h.j, h'.l, h'.u, h'.i, h'.j]
  dsimp only
  split
  · refine .ok ⟨⟨rfl, rfl, rfl, rfl, fun x => ?_⟩, rfl⟩
    exact (h.fn x).bindEq fun a => (h'.fn x).bindEq fun b => .refl _
  · exact .err _

end

namespace Flow
variable {D : Type} [Zero D] [Add D] [Sub D] [Neg D] [LT D] [LE D] [DecidableLT D] [DecidableLE D] [BEq D]

/-- the same state, up to the callbacks of the edges -/
structure WF (s s' : Flow D) : Prop where
  eq : s' = { s with edges := s'.edges }
  ed : WV s.edges s'.edges

theorem WF.mk' {s : Flow D} {E : Vec (OmegaLimit D)} (h : WV s.edges E) : WF s { s with edges := E } := ⟨rfl, h⟩

theorem WF.elim {P : Flow D → Prop} {s s' : Flow D} (h : WF s s') (hp : ∀ E, WV s.edges E → P { s with edges := E }) : P s' := by
  rw [h.eq]
  exact hp _ h.ed

variable (hi : imax ≤ imax')
include hi

theorem toInt_wid (k : Nat) : Wid Eq (toInt imax k) (toInt imax' k) := ck_wid hi _

theorem epsilonLoop_wid (n : Nat) (U : Int) (fuel : Nat) (eps : Int) :
    Wid Eq (epsilonLoop imax n U fuel eps) (epsilonLoop imax' n U fuel eps) := by
  unfold epsilonLoop
  refine Wid.whileLoop (fun s t e => ?_) (fun s t e => ?_) _ _ _ rfl <;> subst e
  · exact (toInt_wid hi _).bindEq fun _ => (ck_wid hi _).bindEq fun _ => (ck_wid hi _).bindEq fun _ => .refl _
  · exact (ck_wid hi _).bindEq fun _ => .refl _

theorem doubleEdges_wid : ∀ (k : Nat) {E E' : Vec (OmegaLimit D)}, WV E E' →
    Wid WV (doubleEdges imax k E) (doubleEdges imax' k E') := by
  intro k
  induction k with
  | zero => intro E E' h; exact .ok h
  | succ k ih =>
    intro E E' h
    unfold doubleEdges
    refine (h.rd _).bind fun e e' he => (h.wr _ he).bind fun E E' h => (h.rd _).bind fun e e' he => (h.wr _ he).bind fun E E' h =>
      (h.rd _).bind fun e e' he => (reverse_wid hi he).bind fun e e' he => (h.wr _ he).bind fun E E' h => ih h

theorem mk'_wid (fuel n : Nat) (M : D) (U : Int) {ls ls' : List (OmegaLimit D)} (hl : List.Forall₂ WE ls ls') :
    Wid WF (mk' imax fuel n M U ls) (mk' imax' fuel n M U ls') := by
  unfold mk'
  refine (epsilonLoop_wid hi _ _ _ _).bindEq fun eps => (toInt_wid hi _).bindEq fun n1 => ?_
  split
  · split
    · have hlen : ls'.length = ls.length := hl.length_eq.symm
      have h0 : WV ((Vec.ofList ls default).resize ((Vec.ofList ls default).size * 2) default)
          ((Vec.ofList ls' default).resize ((Vec.ofList ls' default).size * 2) default) := by
        refine ⟨?_, fun k => ?_⟩
        · simp [Vec.resize, Vec.ofList, hlen]
        · show WE (if k < ls.length then ls.getD k default else default) (if k < ls'.length then ls'.getD k default else default)
          by_cases hk : k < ls.length
          · have hk' : k < ls'.length := by omega
            rw [if_pos hk, if_pos hk', List.getD_eq_getElem _ _ hk, List.getD_eq_getElem _ _ hk']
            exact hl.get hk hk'
          · rw [if_neg hk, if_neg (by omega)]
            exact .refl _
      rw [hlen]
      refine (doubleEdges_wid hi _ h0).bind fun E E' h => ?_
      rw [h.size]
      refine (Wid.forRange (R := Eq) (fun s t i e => ?_) _ _ _ _ rfl).bindEq fun G => .ok ⟨rfl, h⟩
      subst e
      refine (h.rd _).bind fun e e' he => ?_
      rw [he.i]
      exact .refl _
    · exact .err _
  · exact .err _

omit hi in
theorem ceilDiv_wid (hi : imax ≤ imax') (a b : Int) : Wid Eq (ceilDiv imax a b) (ceilDiv imax' a b) := by
  unfold ceilDiv
  split
  · exact .err _
  · exact ck_wid hi _

theorem q_wid {s s' : Flow D} (h : WF s s') (e : Nat) : Wid Eq (q imax s e) (q imax' s' e) := by
  refine h.elim (P := fun s' => Wid Eq (q imax s e) (q imax' s' e)) fun E hE => ?_
  unfold q
  refine (hE.rd _).bind fun e e' he => ?_
  rw [he.i, he.j, he.u, he.l]
  refine .bind' fun si => .bind' fun sj => (ck_wid hi _).bindEq fun num => (toInt_wid hi _).bindEq fun dn =>
    (ceilDiv_wid hi _ _).bindEq fun c => (ck_wid hi _).bindEq fun t => (ck_wid hi _).bindEq fun t1 => .bind' fun f => ?_
  split
  · exact .refl _
  · split
    · exact .refl _
    · exact (he.fn _).bindEq fun b => (he.fn _).bindEq fun a => .refl _

omit hi in
theorem addFlow_wid {s s' : Flow D} (h : WF s s') (e : Nat) (x : D) : Wid WF (addFlowOfEdge s e x) (addFlowOfEdge s' e x) := by
  refine h.elim (P := fun s' => Wid WF (addFlowOfEdge s e x) (addFlowOfEdge s' e x)) fun E hE => ?_
  unfold addFlowOfEdge
  exact .bind' fun f => .bind' fun fl => .bind' fun f => .bind' fun fl => .ok ⟨rfl, hE⟩

theorem link_wid (fuel : Nat) {s s' : Flow D} (h : WF s s') (p : Nat) : Wid WF (link imax fuel s p) (link imax' fuel s' p) := by
  refine h.elim (P := fun s' => Wid WF (link imax fuel s p) (link imax' fuel s' p)) fun E hE => ?_
  unfold link
  refine .bind' fun g => .bind' fun k => .bind' fun id => (hE.rd _).bind fun e e' he => ?_
  rw [he.j]
  refine .bind' fun fa => (q_wid hi ⟨rfl, hE⟩ _).bindEq fun v => .bind' fun h => .bind' fun h => .ok ⟨rfl, hE⟩

theorem cut_wid (fuel : Nat) {s s' : Flow D} (h : WF s s') (p : Nat) : Wid WF (cut imax fuel s p) (cut imax' fuel s' p) := by
  refine h.elim (P := fun s' => Wid WF (cut imax fuel s p) (cut imax' fuel s' p)) fun E hE => ?_
  unfold cut
  refine .bind' fun fa => .bind' fun h => .bind' fun g => .bind' fun k => .bind' fun id => (q_wid hi ⟨rfl, hE⟩ _).bindEq fun v =>
    .bind' fun wh => ?_
  exact addFlow_wid ⟨rfl, hE⟩ _ _

theorem pushEdge_wid {s s' : Flow D} (h : WF s s') (e : Nat) : Wid WF (pushEdge imax s e) (pushEdge imax' s' e) := by
  refine h.elim (P := fun s' => Wid WF (pushEdge imax s e) (pushEdge imax' s' e)) fun E hE => ?_
  unfold pushEdge
  refine (hE.rd _).bind fun e e' he => (q_wid hi ⟨rfl, hE⟩ _).bindEq fun x => ?_
  rw [he.i, he.j]
  split
  · exact .bind' fun bi => .bind' fun im => .bind' fun bj => .bind' fun im => addFlow_wid ⟨rfl, hE⟩ _ _
  · exact .ok ⟨rfl, hE⟩

omit hi in
theorem enqueue_wid {s s' : Flow D} (h : WF s s') (i : Nat) : Wid WF (enqueueActive s i) (enqueueActive s' i) := by
  refine h.elim (P := fun s' => Wid WF (enqueueActive s i) (enqueueActive s' i)) fun E hE => ?_
  unfold enqueueActive
  refine .bind' fun b => ?_
  split
  · exact .bind' fun uq => .ok ⟨rfl, hE⟩
  · exact .ok ⟨rfl, hE⟩

theorem pushAll_wid {s s' : Flow D} (h : WF s s') : Wid WF (pushAllAdmissibleEdge imax s) (pushAllAdmissibleEdge imax' s') := by
  unfold pushAllAdmissibleEdge
  rw [h.ed.size]
  refine (Wid.forRange (R := WF) (fun s t i h => pushEdge_wid hi h i) _ _ _ _ h).bind fun s s' h => ?_
  have : s'.n = s.n := by rw [h.eq]
  rw [this]
  exact Wid.forRange (fun s t i h => enqueue_wid h i) _ _ _ _ h

omit hi in
theorem sendPush_wid (fuel : Nat) {s s' : Flow D} (h : WF s s') (p r : Nat) (x : D) :
    Wid WF (sendPush fuel s p r x) (sendPush fuel s' p r x) := by
  refine h.elim (P := fun s' => Wid WF (sendPush fuel s p r x) (sendPush fuel s' p r x)) fun E hE => ?_
  unfold sendPush
  exact .bind' fun h => .bind' fun bp => .bind' fun im => .bind' fun br => .bind' fun im => enqueue_wid ⟨rfl, hE⟩ _

theorem sendLoop_wid (fuel0 p : Nat) : ∀ (fuel : Nat) {s s' : Flow D}, WF s s' → ∀ r : Nat,
    Wid WF (sendLoop imax fuel0 p fuel s r) (sendLoop imax' fuel0 p fuel s' r) := by
  intro fuel
  induction fuel with
  | zero => intro s s' _ r; exact .err _
  | succ fuel ih =>
    intro s s' h r
    refine h.elim (P := fun s' => Wid WF (sendLoop imax fuel0 p (fuel + 1) s r) (sendLoop imax' fuel0 p (fuel + 1) s' r)) fun E hE => ?_
    unfold sendLoop
    split
    · refine .bind' fun mh => .bind' fun bp => ?_
      split
      · exact sendPush_wid _ ⟨rfl, hE⟩ _ _ _
      · refine (sendPush_wid fuel0 (s := { s with nodes := mh.2 }) ⟨rfl, hE⟩ _ _ _).bind fun s s' h => .bind' fun r =>
          (cut_wid hi _ h _).bind fun s s' h => ih h _
    · exact .ok ⟨rfl, hE⟩

theorem send_wid (fuel : Nat) {s s' : Flow D} (h : WF s s') (p : Nat) : Wid WF (send imax fuel s p) (send imax' fuel s' p) := by
  refine h.elim (P := fun s' => Wid WF (send imax fuel s p) (send imax' fuel s' p)) fun E hE => ?_
  unfold send
  exact .bind' fun rh => sendLoop_wid hi fuel p fuel (s := { s with nodes := rh.2 }) ⟨rfl, hE⟩ _

theorem cutChildren_wid (fuel p : Nat) : ∀ (es : List Nat) {s s' : Flow D}, WF s s' →
    Wid WF (cutChildren imax fuel p es s) (cutChildren imax' fuel p es s') := by
  intro es
  induction es with
  | nil => intro s s' h; exact .ok h
  | cons e es ih =>
    intro s s' h
    refine h.elim (P := fun s' => Wid WF (cutChildren imax fuel p (e :: es) s) (cutChildren imax' fuel p (e :: es) s')) fun E hE => ?_
    unfold cutChildren
    refine (hE.rd _).bind fun e e' he => ?_
    rw [he.j]
    refine .bind' fun f => ?_
    dsimp only
    split
    · exact (cut_wid hi _ ⟨rfl, hE⟩ _).bind fun s s' h => ih h
    · exact ih ⟨rfl, hE⟩

theorem updateScaling_wid (fuel : Nat) {s s' : Flow D} (h : WF s s') (p : Nat) :
    Wid WF (updateScaling imax fuel s p) (updateScaling imax' fuel s' p) := by
  refine h.elim (P := fun s' => Wid WF (updateScaling imax fuel s p) (updateScaling imax' fuel s' p)) fun E hE => ?_
  unfold updateScaling
  refine .bind' fun g => (cutChildren_wid hi fuel p g ⟨rfl, hE⟩).bind fun s s' h => ?_
  refine h.elim (P := fun s' => Wid WF _ (s'.scaling.rd p >>= fun v => ck imax' (v + s'.epsilon.tdiv 2) >>= fun v' =>
    s'.scaling.wr p v' >>= fun sc => s'.currentEdge.wr p 0 >>= fun ce =>
      .ok { s' with scaling := sc, currentEdge := ce })) fun E hE => ?_
  exact .bind' fun v => (ck_wid hi _).bindEq fun v' => .bind' fun sc => .bind' fun ce => .ok ⟨rfl, hE⟩

theorem choiceLoop_wid (fuel0 p : Nat) : ∀ (fuel : Nat) {s s' : Flow D}, WF s s' →
    Wid WF (choiceLoop imax fuel0 p fuel s) (choiceLoop imax' fuel0 p fuel s') := by
  intro fuel
  induction fuel with
  | zero => intro s s' _; exact .err _
  | succ fuel ih =>
    intro s s' h
    refine h.elim (P := fun s' => Wid WF (choiceLoop imax fuel0 p (fuel + 1) s) (choiceLoop imax' fuel0 p (fuel + 1) s')) fun E hE => ?_
    unfold choiceLoop
    refine .bind' fun k => .bind' fun g => ?_
    split
    · refine .bind' fun id => (q_wid hi ⟨rfl, hE⟩ _).bindEq fun x => ?_
      split
      · exact (link_wid hi _ ⟨rfl, hE⟩ _).bind fun s s' h => send_wid hi _ h _
      · exact .bind' fun ce => ih (s := { s with currentEdge := ce }) ⟨rfl, hE⟩
    · exact updateScaling_wid hi _ ⟨rfl, hE⟩ _

theorem refineStep_wid (fuel : Nat) {s s' : Flow D} (h : WF s s') : Wid WF (refineStep imax fuel s) (refineStep imax' fuel s') := by
  have hu : s'.uq = s.uq := by rw [h.eq]
  unfold refineStep choiceOperator
  rw [hu]
  refine .bind' fun p => (choiceLoop_wid hi fuel p fuel h).bind fun s s' h => ?_
  refine h.elim (P := fun s' => Wid WF _ (s'.uq.front >>= fun p => s'.imbalances.rd p >>= fun b =>
    if b == 0 then s'.uq.pop >>= fun uq => .ok { s' with uq := uq } else .ok s')) fun E hE => ?_
  refine .bind' fun p => .bind' fun b => ?_
  split
  · exact .bind' fun uq => .ok ⟨rfl, hE⟩
  · exact .ok ⟨rfl, hE⟩

theorem refine_wid (fuel : Nat) {s s' : Flow D} (h : WF s s') : Wid WF (refine imax fuel s) (refine imax' fuel s') := by
  unfold refine
  refine (Wid.whileLoop (fun s t h => ?_) (fun s t h => refineStep_wid hi fuel h) _ _ _ h).bind fun s s' h => ?_
  · have hu : t.uq = s.uq := by rw [h.eq]
    rw [hu]; exact .refl _
  · have hn : s'.n = s.n := by rw [h.eq]
    rw [hn]
    refine Wid.forRange (fun s s' i h => ?_) _ _ _ _ h
    have hf : s'.fa = s.fa := by rw [h.eq]
    unfold cutIfLinked
    rw [hf]
    refine .bind' fun f => ?_
    split
    · exact cut_wid hi _ h _
    · exact .ok h

theorem phase_wid (fuel : Nat) {s s' : Flow D} (h : WF s s') : Wid WF (phase imax fuel s) (phase imax' fuel s') := by
  have h0 : WF (initialization s) (initialization s') :=
    h.elim (P := fun s' => WF (initialization s) (initialization s')) fun E hE => ⟨rfl, hE⟩
  unfold phase
  refine (pushAll_wid hi h0).bind fun s s' h => (refine_wid hi fuel h).bind fun s s' h => ?_
  exact h.elim (P := fun s' => Wid WF _ (.ok { s' with epsilon := s'.epsilon.tdiv 2 })) fun E hE => .ok ⟨rfl, hE⟩

theorem phases_wid (fuel : Nat) {s s' : Flow D} (h : WF s s') : Wid WF (phases imax fuel s) (phases imax' fuel s') := by
  unfold phases
  refine Wid.whileLoop (fun s t h => ?_) (fun s t h => phase_wid hi fuel h) _ _ _ h
  have hu : t.epsilon = s.epsilon := by rw [h.eq]
  rw [hu]; exact .refl _

variable [Mul D] [Div D] [IntCast D]

theorem minCost_wid (fuel : Nat) {s s' : Flow D} (h : WF s s') :
    Wid (fun a b => a.1 = b.1 ∧ WF a.2 b.2) (minCost imax fuel s) (minCost imax' fuel s') := by
  unfold minCost
  refine (phases_wid hi fuel h).bind fun s s' h => ?_
  rw [h.ed.size]
  refine (Wid.forRange (R := fun a b => a.1 = b.1 ∧ WF a.2 b.2) ?_ _ _ _ _ ⟨rfl, h⟩).bind ?_
  · rintro ⟨a, s⟩ ⟨a', s'⟩ i ⟨h1, h⟩
    dsimp only at h1 h
    subst h1
    unfold addEdgeMin
    refine (h.ed.rd i).bind fun e e' he => ?_
    have hf : s'.flows = s.flows := by rw [h.eq]
    rw [hf]
    refine .bind' fun x => ?_
    have he' : WE { e with fn := fun w => do let v ← e.fn w; .ok (v - x * (w : D)) }
        { e' with fn := fun w => do let v ← e'.fn w; .ok (v - x * (w : D)) } :=
      ⟨he.l, he.u, he.i, he.j, fun w => (he.fn w).bindEq fun v => .refl _⟩
    refine (h.ed.wr i he').bind fun E E' hE => (minimum_wid hi he' fuel).bindEq fun m => .ok ⟨rfl, ?_, hE⟩
    dsimp only
    rw [h.eq]
  · rintro ⟨a, s⟩ ⟨a', s'⟩ ⟨h1, h⟩
    dsimp only at h1 h
    subst h1
    exact .ok ⟨rfl, h⟩

end Flow

namespace ProblemSolver
variable {D : Type} (hi : imax ≤ imax')
include hi

theorem processOmegas_wid [LT D] [DecidableLT D] (fuel n : Nat) (Mus : List (MuLimit D)) : ∀ (Os : List (OmegaLimit D)),
    Wid (Option.Rel (List.Forall₂ WE)) (processOmegas imax fuel n Mus Os) (processOmegas imax' fuel n Mus Os) := by
  intro Os
  induction Os with
  | nil => exact .ok (.some .nil)
  | cons e Os ih =>
    unfold processOmegas
    split
    · exact .ok .none
    split
    · exact .ok .none
    split
    · exact .ok .none
    split
    · exact .ok .none
    refine (preProcessing_wid hi (.refl e) fuel).bind fun e e' he => ?_
    rw [he.i, he.j, he.u]
    refine .bind' fun mi => .bind' fun mj => (ck_wid hi _).bindEq fun l' => ?_
    dsimp only
    split
    · exact .ok .none
    · refine ih.bind fun r r' hr => .ok ?_
      cases hr with
      | none => exact .none
      | some h => exact .some (.cons ⟨rfl, rfl, rfl, rfl, he.fn⟩ h)

/-- the same object, up to the callbacks -/
structure WP (s s' : ProblemSolver D) : Prop where
  n : s'.n = s.n
  Mus : s'.Mus = s.Mus
  Omegas : List.Forall₂ WE s.Omegas s'.Omegas

theorem ctor_wid [LT D] [DecidableLT D] (fuel n : Nat) (Mus : List (MuLimit D)) (Os : List (OmegaLimit D)) :
    Wid WP (mk' imax fuel n Mus Os) (mk' imax' fuel n Mus Os) := by
  unfold mk'
  split
  · exact .ok ⟨rfl, rfl, .nil⟩
  · refine .bind' fun ok => ?_
    split
    · exact .ok ⟨rfl, rfl, .nil⟩
    · refine (processOmegas_wid hi fuel n Mus Os).bind fun r r' hr => ?_
      cases hr with
      | none => exact .ok ⟨rfl, rfl, .nil⟩
      | some h => exact .ok ⟨rfl, rfl, h⟩

/-- the same map, up to the callbacks -/
def WMap (m m' : LimitMap D) : Prop := List.Forall₂ (fun a b => b.1 = a.1 ∧ WE a.2 b.2) m m'

omit hi in
theorem WMap.find {m m' : LimitMap D} (h : WMap m m') (k : Nat × Nat) : Option.Rel WE (mapFind m k) (mapFind m' k) := by
  induction h with
  | nil => exact .none
  | @cons a b m m' h _ ih =>
    obtain ⟨ka, va⟩ := a
    obtain ⟨kb, vb⟩ := b
    obtain ⟨rfl, h⟩ := h
    unfold mapFind
    dsimp only
    split
    · exact .some h
    · exact ih

omit hi in
theorem WMap.set {m m' : LimitMap D} (h : WMap m m') (k : Nat × Nat) {v v' : OmegaLimit D} (hv : WE v v') :
    WMap (mapSet m k v) (mapSet m' k v') := by
  induction h with
  | nil => exact .cons ⟨rfl, hv⟩ .nil
  | @cons a b m m' h hm ih =>
    obtain ⟨ka, va⟩ := a
    obtain ⟨kb, vb⟩ := b
    obtain ⟨rfl, h⟩ := h
    unfold mapSet
    dsimp only
    split
    · exact .cons ⟨rfl, hv⟩ hm
    · split
      · exact .cons ⟨rfl, hv⟩ (.cons ⟨rfl, h⟩ hm)
      · exact .cons ⟨rfl, h⟩ ih

theorem mergeLoop_wid [Add D] {Os Os' : List (OmegaLimit D)} (h : List.Forall₂ WE Os Os') : ∀ {m m' : LimitMap D}, WMap m m' →
    Wid (Option.Rel WMap) (mergeLoop imax Os m) (mergeLoop imax' Os' m') := by
  induction h with
  | nil => intro m m' hm; exact .ok (.some hm)
  | @cons e e' Os Os' he _ ih =>
    intro m m' hm
    have main : ∀ {e e' : OmegaLimit D}, WE e e' → Wid (Option.Rel WMap)
        (match mapFind m (e.i, e.j) with
          | some v => do
            let (v', err) ← v.merge e
            if err then .ok none else mergeLoop imax Os (mapSet m (e.i, e.j) v')
          | none => mergeLoop imax Os (mapSet m (e.i, e.j) e))
        (match mapFind m' (e'.i, e'.j) with
          | some v => do
            let (v', err) ← v.merge e'
            if err then .ok none else mergeLoop imax' Os' (mapSet m' (e'.i, e'.j) v')
          | none => mergeLoop imax' Os' (mapSet m' (e'.i, e'.j) e')) := by
      intro e e' he
      rw [he.i, he.j]
      have hf := hm.find (e.i, e.j)
      generalize mapFind m (e.i, e.j) = a at hf ⊢
      generalize mapFind m' (e.i, e.j) = b at hf ⊢
      cases hf with
      | none => exact ih (hm.set _ he)
      | some h =>
        refine (merge_wid h he).bind ?_
        rintro ⟨v, r⟩ ⟨v', r'⟩ ⟨hv, hr⟩
        dsimp only at hv hr
        subst hr
        dsimp only
        split
        · exact .ok .none
        · exact ih (hm.set _ hv)
    unfold mergeLoop
    rw [he.i, he.j]
    dsimp only
    split
    · exact (reverse_wid hi he).bind fun a b h => main h
    · exact Wid.bind (R := WE) (.ok he) fun a b h => main h

theorem mergeLimits_wid [Add D] {s s' : ProblemSolver D} (h : WP s s') :
    Wid (Option.Rel (List.Forall₂ WE)) (mergeLimits imax s) (mergeLimits imax' s') := by
  unfold mergeLimits
  rw [h.n, h.Mus]
  refine (mergeLoop_wid hi h.Omegas .nil).bind fun r r' hr => ?_
  cases hr with
  | none => exact .ok .none
  | @some m m' hm =>
    refine .bind' fun mus => .ok (.some ?_)
    refine List.rel_append ?_ (List.forall₂_same.2 fun e _ => .refl e)
    clear h
    induction hm with
    | nil => exact .nil
    | cons h _ ih => exact .cons h.2 ih

section
variable [Zero D] [One D] [Add D] [Sub D] [Neg D] [Mul D] [Div D] [IntCast D]
  [LT D] [LE D] [DecidableLT D] [DecidableLE D] [BEq D]

theorem calcLoop_wid (fuel : Nat) {ls ls' : List (OmegaLimit D)} (h : List.Forall₂ WE ls ls') : ∀ (a : D × D × Int),
    Wid Eq (calcLoop imax fuel ls a) (calcLoop imax' fuel ls' a) := by
  induction h with
  | nil => intro a; exact .refl _
  | cons he _ ih =>
    intro a
    unfold calcLoop
    rw [he.l, he.u]
    exact (he.fn _).bindEq fun a => (he.fn _).bindEq fun b => (minimum_wid hi he fuel).bindEq fun m =>
      (ck_wid hi _).bindEq fun w => ih _

theorem solve_wid (fuel : Nat) {s s' : ProblemSolver D} (h : WP s s') : Wid Eq (solve imax fuel s) (solve imax' fuel s') := by
  unfold solve calc'
  rw [h.n]
  split
  · exact .refl _
  · refine (mergeLimits_wid hi h).bind fun r r' hr => ?_
    cases hr with
    | none => exact .refl _
    | some hl =>
      refine (calcLoop_wid hi fuel hl _).bindEq fun vMU => ?_
      refine (Flow.mk'_wid hi fuel _ _ _ hl).bind fun fl fl' hf => (Flow.minCost_wid hi fuel hf).bind ?_
      rintro ⟨m, t⟩ ⟨m', t'⟩ ⟨hm, -⟩
      dsimp only at hm
      subst hm
      exact .refl _

/-- The program with a wider `int`. -/
theorem run_wid (fuel n : Nat) (Mus : List (MuLimit D)) (Os : List (OmegaLimit D)) :
    Wid Eq (run imax fuel n Mus Os) (run imax' fuel n Mus Os) := by
  unfold run
  exact (ctor_wid hi fuel n Mus Os).bind fun s s' h => solve_wid hi fuel h

end
end ProblemSolver
end AHO
