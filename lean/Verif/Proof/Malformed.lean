import Verif.Proof.Mono
import Verif.Proof.FlowMin
import Verif.Model.Solver
/-!
# Malformed input, safety of the constructor
-/

set_option linter.unusedSectionVars false

namespace AHO
variable {D : Type}

section
variable [LT D] [DecidableLT D]

open ProblemSolver

theorem preProcessing_total {imax : Int} {fuel : Nat} {o : OmegaLimit D} (h : Callable imax o) (hle : o.l ≤ o.u)
    (hf : Flow.bits imax < fuel) : ∃ fn', o.preProcessing imax fuel = .ok { o with fn := fn' } := by
  have hd : ∀ x, ∃ b, o.l ≤ x → x < o.u → descends imax o.fn x = .ok b := by
    intro x
    by_cases hx : o.l ≤ x ∧ x < o.u
    · obtain ⟨a, ha⟩ := h.fn x hx.1 (by omega)
      obtain ⟨b, hb⟩ := h.fn (x + 1) (by omega) (by omega)
      refine ⟨decide (b < a), fun _ _ => ?_⟩
      unfold descends
      rw [ha, ok_bind, ck_ok (by have := h.lo; omega) (by have := h.hi; omega), ok_bind, hb, ok_bind]
    · exact ⟨false, fun h1 h2 => absurd ⟨h1, h2⟩ hx⟩
  choose b hb using hd
  have hw := h.width
  obtain ⟨p, hp, -⟩ := partitionPoint_spec (imax := imax) hf hle (Flow.bits_spec (by omega)) h.lo h.hi hw hb
  unfold OmegaLimit.preProcessing
  rw [hp, ok_bind]
  exact ⟨_, rfl⟩

theorem processOmegas_total {imax : Int} {fuel n : Nat} {Mus : List (MuLimit D)} (hlen : Mus.length = n + 1)
    (hdiff : ∀ i j (mi mj : MuLimit D), 1 ≤ i → 1 ≤ j → Mus[i]? = some mi → Mus[j]? = some mj →
      -imax - 1 ≤ mi.l - mj.u ∧ mi.l - mj.u ≤ imax)
    (hf : Flow.bits imax < fuel) : ∀ Os : List (OmegaLimit D), (∀ o ∈ Os, Callable imax o) →
    ∃ r, processOmegas imax fuel n Mus Os = .ok r ∧ ((∃ o ∈ Os, BadLimit n Mus o) → r = none) := by
  intro Os
  induction Os with
  | nil => intro _; exact ⟨some [], rfl, by simp⟩
  | cons o Os ih =>
    intro h
    unfold processOmegas
    by_cases h1 : 1 ≤ o.i ∧ o.i ≤ n
    swap
    · rw [if_pos h1]; exact ⟨none, rfl, fun _ => rfl⟩
    rw [if_neg (not_not.2 h1)]
    by_cases h2 : 1 ≤ o.j ∧ o.j ≤ n
    swap
    · rw [if_pos h2]; exact ⟨none, rfl, fun _ => rfl⟩
    rw [if_neg (not_not.2 h2)]
    by_cases h3 : o.i = o.j
    · rw [if_pos (by simpa using h3)]; exact ⟨none, rfl, fun _ => rfl⟩
    rw [if_neg (by simpa using h3)]
    by_cases h4 : o.l ≤ o.u
    swap
    · rw [if_pos h4]; exact ⟨none, rfl, fun _ => rfl⟩
    rw [if_neg (not_not.2 h4)]
    obtain ⟨fn', e⟩ := preProcessing_total (h o (by simp)) h4 hf
    rw [e, ok_bind]
    have hi : o.i < Mus.length := by omega
    have hj : o.j < Mus.length := by omega
    have ei : Mus[o.i]? = some Mus[o.i] := List.getElem?_eq_getElem hi
    have ej : Mus[o.j]? = some Mus[o.j] := List.getElem?_eq_getElem hj
    have hd := hdiff _ _ _ _ h1.1 h2.1 ei ej
    dsimp only
    rw [listRd_ok hi, ok_bind, listRd_ok hj, ok_bind, ck_ok hd.1 hd.2, ok_bind]
    by_cases h5 : Mus[o.i].l - Mus[o.j].u ≤ o.u
    swap
    · rw [if_pos h5]; exact ⟨none, rfl, fun _ => rfl⟩
    rw [if_neg (not_not.2 h5)]
    obtain ⟨r, e1, e2⟩ := ih fun o ho => h o (by simp [ho])
    rw [e1, ok_bind]
    refine ⟨_, rfl, ?_⟩
    rintro ⟨q, hq, hb⟩
    rcases List.mem_cons.1 hq with rfl | hq
    · exfalso
      rcases hb with hb | hb | hb | hb | ⟨mi, mj, b1, b2, b3⟩
      · exact hb h1
      · exact hb h2
      · exact h3 hb
      · omega
      · rw [ei] at b1; rw [ej] at b2
        cases b1; cases b2
        omega
    · rw [e2 ⟨q, hq, hb⟩]; rfl

/-- Outcome of the loop over the node limits. -/
theorem checkMus_total {Mus : List (MuLimit D)} : ∀ (cnt i : Nat), i + cnt ≤ Mus.length →
    ∃ b, checkMus Mus i cnt = .ok b ∧ (b = true ↔ ∀ k m, i ≤ k → k < i + cnt → Mus[k]? = some m → m.l ≤ m.u) := by
  intro cnt
  induction cnt with
  | zero => intro i _; exact ⟨true, rfl, by simp; intro k _ h1 h2; omega⟩
  | succ cnt ih =>
    intro i h
    unfold checkMus
    rw [listRd_ok (by omega : i < Mus.length), ok_bind]
    by_cases hle : Mus[i].l ≤ Mus[i].u
    · rw [if_pos hle]
      obtain ⟨b, b1, b2⟩ := ih (i + 1) (by omega)
      refine ⟨b, b1, b2.trans ⟨fun hh k m h1 h2 hm => ?_, fun hh k m h1 h2 => hh k m (by omega) (by omega)⟩⟩
      by_cases hki : k = i
      · subst hki
        rw [List.getElem?_eq_getElem (by omega)] at hm
        cases hm; exact hle
      · exact hh k m (by omega) (by omega) hm
    · rw [if_neg hle]
      refine ⟨false, rfl, ⟨fun h => by simp at h, fun hh => ?_⟩⟩
      exact absurd (hh i _ le_rfl (by omega) (List.getElem?_eq_getElem (by omega))) hle

/-- The constructor neither reads outside a vector nor meets any other undefined behaviour except overflow. -/
theorem partitionPoint_oob {imax : Int} {pred : Int → Res Bool} (hp : ∀ x, pred x ≠ .error .oob) :
    ∀ (fuel : Nat) (l r : Int), partitionPoint imax pred fuel l r ≠ .error .oob := by
  intro fuel
  induction fuel with
  | zero => intro l r h; cases h
  | succ fuel ih =>
    intro l r
    unfold partitionPoint ck
    by_cases h : l ≠ r
    · rw [if_pos h]
      by_cases h1 : -imax - 1 ≤ r - l ∧ r - l ≤ imax
      swap
      · rw [if_neg h1]; intro h; cases h
      rw [if_pos h1, ok_bind]
      by_cases h2 : -imax - 1 ≤ l + (r - l).tdiv 2 ∧ l + (r - l).tdiv 2 ≤ imax
      swap
      · rw [if_neg h2]; intro h; cases h
      rw [if_pos h2, ok_bind]
      cases hb : pred (l + (r - l).tdiv 2) with
      | error e =>
        intro h
        have : e = .oob := by simpa using h
        rw [this] at hb
        exact hp _ hb
      | ok b =>
        rw [ok_bind]
        cases b
        · rw [if_neg (by simp)]; exact ih _ _
        · rw [if_pos rfl]
          by_cases h3 : -imax - 1 ≤ l + (r - l).tdiv 2 + 1 ∧ l + (r - l).tdiv 2 + 1 ≤ imax
          swap
          · rw [if_neg h3]; intro h; cases h
          rw [if_pos h3, ok_bind]
          exact ih _ _
    · rw [if_neg h]; intro h; cases h

theorem descends_oob {imax : Int} {fn : Fn D} (hp : ∀ x, fn x ≠ .error .oob) (x : Int) : descends imax fn x ≠ .error .oob := by
  unfold descends ck
  cases ha : fn x with
  | error e => intro h; have : e = .oob := by simpa using h
               rw [this] at ha; exact hp _ ha
  | ok a =>
    rw [ok_bind]
    by_cases h2 : -imax - 1 ≤ x + 1 ∧ x + 1 ≤ imax
    swap
    · rw [if_neg h2]; intro h; cases h
    rw [if_pos h2, ok_bind]
    cases hb : fn (x + 1) with
    | error e => intro h; have : e = .oob := by simpa using h
                 rw [this] at hb; exact hp _ hb
    | ok b => intro h; cases h

theorem processOmegas_oob {imax : Int} {fuel n : Nat} {Mus : List (MuLimit D)} (hlen : n < Mus.length) :
    ∀ Os : List (OmegaLimit D), (∀ o ∈ Os, ∀ x, o.fn x ≠ .error .oob) →
    processOmegas imax fuel n Mus Os ≠ .error .oob := by
  intro Os
  induction Os with
  | nil => intro _ h; cases h
  | cons o Os ih =>
    intro h
    unfold processOmegas
    by_cases h1 : 1 ≤ o.i ∧ o.i ≤ n
    swap
    · rw [if_pos h1]; intro h; cases h
    rw [if_neg (not_not.2 h1)]
    by_cases h2 : 1 ≤ o.j ∧ o.j ≤ n
    swap
    · rw [if_pos h2]; intro h; cases h
    rw [if_neg (not_not.2 h2)]
    by_cases h3 : o.i = o.j
    · rw [if_pos (by simpa using h3)]; intro h; cases h
    rw [if_neg (by simpa using h3)]
    by_cases h4 : o.l ≤ o.u
    swap
    · rw [if_pos h4]; intro h; cases h
    rw [if_neg (not_not.2 h4)]
    cases hp : partitionPoint imax (descends imax o.fn) fuel o.l o.u with
    | error e =>
      unfold OmegaLimit.preProcessing
      rw [hp]
      intro hh
      have : e = .oob := by simpa using hh
      rw [this] at hp
      exact partitionPoint_oob (descends_oob (h o (by simp))) _ _ _ hp
    | ok m =>
      unfold OmegaLimit.preProcessing
      rw [hp, ok_bind, ok_bind]
      have hi : o.i < Mus.length := by omega
      have hj : o.j < Mus.length := by omega
      dsimp only
      rw [listRd_ok hi, ok_bind, listRd_ok hj, ok_bind]
      by_cases h6 : -imax - 1 ≤ Mus[o.i].l - Mus[o.j].u ∧ Mus[o.i].l - Mus[o.j].u ≤ imax
      swap
      · unfold ck; rw [if_neg h6]; intro h; cases h
      rw [ck_ok h6.1 h6.2, ok_bind]
      by_cases h5 : Mus[o.i].l - Mus[o.j].u ≤ o.u
      swap
      · rw [if_pos h5]; intro h; cases h
      rw [if_neg (not_not.2 h5)]
      have := ih fun o ho => h o (by simp [ho])
      cases e : processOmegas imax fuel n Mus Os with
      | error e' => rw [e] at this; intro hh; exact this (by simpa using hh)
      | ok r => intro h; cases h

end
end AHO
