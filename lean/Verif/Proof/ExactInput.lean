import Verif.Proof.Exact
import Verif.Link
/-!
# The exact run that belongs to a floating-point run

`exactMus P`, `exactOmegas P` are arguments for the problem `P` whose callbacks fail outside their ranges.
-/

namespace AHO
open Format Spec

/-- one-sided simulation with a relation between the results -/
def RSim {α β : Type} (x : Res α) (y : Res β) (R : α → β → Prop) : Prop := ∀ a, x = .ok a → ∃ b, y = .ok b ∧ R a b

namespace RSim
variable {α β γ δ : Type} {x : Res α} {y : Res β} {R R' : α → β → Prop}

theorem ok {a : α} {b : β} (h : R a b) : RSim (.ok a : Res α) (.ok b : Res β) R := by
  rintro a' ⟨⟩
  exact ⟨b, rfl, h⟩

theorem error {e : Err} : RSim (.error e : Res α) y R := by
  rintro a' ⟨⟩

theorem bind {k : α → Res γ} {k' : β → Res δ} {R' : γ → δ → Prop} (h : RSim x y R) (h2 : ∀ a b, x = .ok a → R a b → RSim (k a) (k' b) R') :
    RSim (x >>= k) (y >>= k') R' := by
  intro c hc
  cases hx : x with
  | error e => rw [hx] at hc; cases hc
  | ok a =>
    rw [hx] at hc
    obtain ⟨b, h3, h4⟩ := h a hx
    rw [h3]
    exact h2 a b hx h4 c hc

theorem toSim {g : α → β} {Q : α → Prop} (h : RSim x y (fun a b => b = g a ∧ Q a)) : Sim x y g Q := by
  intro a ha
  obtain ⟨b, h1, h2, h3⟩ := h a ha
  exact ⟨by rw [h1, h2], h3⟩

theorem bindS {k : α → Res γ} {k' : β → Res δ} {g : γ → δ} {Q : γ → Prop} (h : RSim x y R) (h2 : ∀ a b, x = .ok a → R a b → Sim (k a) (k' b) g Q) :
    Sim (x >>= k) (y >>= k') g Q :=
  toSim (h.bind fun a b hx hr c hc => ⟨g c, (h2 a b hx hr c hc).1, rfl, (h2 a b hx hr c hc).2⟩)

theorem ite {c c' : Prop} [Decidable c] [Decidable c'] {x₁ x₂ : Res α} {y₁ y₂ : Res β} (hc : c' ↔ c) (h1 : c → RSim x₁ y₁ R)
    (h2 : ¬ c → RSim x₂ y₂ R) : RSim (if c then x₁ else x₂) (if c' then y₁ else y₂) R := by
  by_cases h : c
  · rw [if_pos h, if_pos (hc.2 h)]; exact h1 h
  · rw [if_neg h, if_neg (fun h' => h (hc.1 h'))]; exact h2 h

theorem same {x : Res α} : RSim x x (fun a b => b = a) := fun a h => ⟨a, h, rfl⟩

end RSim

theorem Sim.bindR {α β γ δ : Type} {x : Res α} {y : Res β} {g : α → β} {Q : α → Prop} {k : α → Res γ} {k' : β → Res δ} {R : γ → δ → Prop}
    (h : Sim x y g Q) (h2 : ∀ a, x = .ok a → Q a → RSim (k a) (k' (g a)) R) : RSim (x >>= k) (y >>= k') R := by
  have h' : RSim x y (fun a b => b = g a ∧ Q a) := fun a ha => ⟨g a, (h a ha).1, rfl, (h a ha).2⟩
  exact h'.bind fun a b hx hr => by rw [hr.1]; exact h2 a hx hr.2

theorem _root_.AHO.Spec.Problem.AllCosts.mono {K : Type} {P : Problem K} {V V' : K → Prop} (h : P.AllCosts V) (h2 : ∀ v, V v → V' v) : P.AllCosts V' :=
  ⟨fun i a b x c d => h2 _ (h.nodes i a b x c d), fun p a x b c => h2 _ (h.pairs p a x b c)⟩

section
variable {f : Format}

/-- the callback `φ'` returns the values of `φ`, which satisfy `V` -/
def FnSim (V : ℚ → Prop) (φ : Fn ℚ) (φ' : Fn (Flt f)) : Prop := ∀ x, Sim (φ x) (φ' x) (Flt.ofRat f) V

/-- the same for a limit of a node -/
structure MuSim (V : ℚ → Prop) (m : MuLimit ℚ) (m' : MuLimit (Flt f)) : Prop where
  l : m'.l = m.l
  u : m'.u = m.u
  fn : FnSim V m.fn m'.fn

/-- the same for a limit of a pair -/
structure OmSim (V : ℚ → Prop) (m : OmegaLimit ℚ) (m' : OmegaLimit (Flt f)) : Prop extends MuSim V m.toMuLimit m'.toMuLimit where
  i : m'.i = m.i
  j : m'.j = m.j

/-- the limits of the nodes; nothing is said about number 0 -/
structure MusSim (V : ℚ → Prop) (l : List (MuLimit ℚ)) (l' : List (MuLimit (Flt f))) : Prop where
  len : l'.length = l.length
  get : ∀ i, 1 ≤ i → ∀ m, l[i]? = some m → ∃ m', l'[i]? = some m' ∧ MuSim V m m'

theorem MusSim.rd {V : ℚ → Prop} {l : List (MuLimit ℚ)} {l' : List (MuLimit (Flt f))} (h : MusSim V l l') {i : Nat} (hi : 1 ≤ i) :
    RSim (listRd l i) (listRd l' i) (MuSim V) := by
  intro m hm
  unfold listRd at hm ⊢
  cases hl : l[i]? with
  | none => rw [hl] at hm; cases hm
  | some a =>
    rw [hl] at hm
    cases hm
    obtain ⟨m', h1, h2⟩ := h.get i hi m hl
    rw [h1]
    exact ⟨m', rfl, h2⟩

/-- limits of the nodes whose callbacks fail outside their ranges -/
def exactMus (P : Problem ℚ) : List (MuLimit ℚ) :=
  (List.range (P.n + 1)).map fun i => ⟨P.lo i, P.hi i, fun x => if P.lo i ≤ x ∧ x ≤ P.hi i then .ok (P.F i x) else .error .callback⟩

/-- limits of the pairs whose callbacks fail outside their ranges -/
def exactOmegas (P : Problem ℚ) : List (OmegaLimit ℚ) :=
  P.pairs.map fun p => ⟨⟨p.l, p.u, fun x => if p.l ≤ x ∧ x ≤ p.u then .ok (p.B x) else .error .callback⟩, p.i, p.j⟩

theorem exact_represents (P : Problem ℚ) : Represents P (exactMus P) (exactOmegas P) := by
  refine ⟨by simp [exactMus], fun i hi _ => ?_, ?_⟩
  · simp only [exactMus, List.getElem_map, List.getElem_range]
    exact ⟨rfl, rfl, fun x h1 h2 => if_pos ⟨h1, h2⟩⟩
  · unfold exactOmegas
    rw [List.forall₂_map_left_iff, List.forall₂_same]
    intro p _
    exact ⟨rfl, rfl, rfl, rfl, fun x h1 h2 => if_pos ⟨h1, h2⟩⟩

variable {P : Problem ℚ} {Mus : List (MuLimit (Flt f))} {Omegas : List (OmegaLimit (Flt f))} {V : ℚ → Prop}

theorem exact_musSim (rep : Represents (P.mapCosts (Flt.ofRat f)) Mus Omegas) (hv : P.AllCosts V) : MusSim V (exactMus P) Mus := by
  have hl : Mus.length = P.n + 1 := rep.len
  refine ⟨by rw [hl]; simp [exactMus], fun i hi m hm => ?_⟩
  simp only [exactMus, List.getElem?_map, Option.map_eq_some_iff] at hm
  obtain ⟨k, hk, rfl⟩ := hm
  obtain ⟨hk1, hk2⟩ := List.getElem?_eq_some_iff.1 hk
  rw [List.getElem_range] at hk2
  subst hk2
  rw [List.length_range] at hk1
  have h := rep.mus i (by rw [hl]; exact hk1) hi
  refine ⟨_, List.getElem?_eq_getElem (by rw [hl]; exact hk1), h.l, h.u, fun x a ha => ?_⟩
  simp only at ha
  by_cases hx : P.lo i ≤ x ∧ x ≤ P.hi i
  · rw [if_pos hx] at ha
    cases ha
    exact ⟨h.fn x hx.1 hx.2, hv.nodes i hi (by omega) x hx.1 hx.2⟩
  · rw [if_neg hx] at ha; cases ha

theorem exact_omSim (rep : Represents (P.mapCosts (Flt.ofRat f)) Mus Omegas) (hv : P.AllCosts V) :
    List.Forall₂ (OmSim V) (exactOmegas P) Omegas := by
  have h := rep.omegas
  have h' : List.Forall₂ (fun (p : Pair ℚ) (o : OmegaLimit (Flt f)) => o.Is ⟨p.i, p.j, p.l, p.u, fun x => Flt.ofRat f (p.B x)⟩) P.pairs Omegas := by
    have := h.flip
    unfold Problem.mapCosts at this
    rwa [List.forall₂_map_left_iff] at this
  unfold exactOmegas
  rw [List.forall₂_map_left_iff]
  have h2 : ∀ p ∈ P.pairs, ∀ x, p.l ≤ x → x ≤ p.u → V (p.B x) := hv.pairs
  clear h hv rep
  revert h2
  generalize P.pairs = ps at h'
  intro h2
  induction h' with
  | nil => exact .nil
  | cons h3 _ ih =>
    refine .cons ⟨⟨h3.l, h3.u, fun x a ha => ?_⟩, h3.i, h3.j⟩ (ih fun p hp => h2 p (List.mem_cons_of_mem _ hp))
    simp only at ha
    split at ha
    · rename_i hx
      cases ha
      exact ⟨h3.fn x hx.1 hx.2, h2 _ (List.mem_cons_self ..) x hx.1 hx.2⟩
    · cases ha

end
end AHO
