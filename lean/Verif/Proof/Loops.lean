import Verif.Proof.Basic
/-!
# Rules for the loops of the model
-/

namespace AHO

/-- `while` with an invariant `Inv s m` in which `m` decreases with every round. -/
theorem whileLoop_ok {σ : Type} {cond : σ → Res Bool} {body : σ → Res σ} {Inv : σ → Nat → Prop}
    (step : ∀ s m, Inv s m → cond s = .ok false ∨
      (cond s = .ok true ∧ ∃ s' m', body s = .ok s' ∧ Inv s' m' ∧ m' < m)) :
    ∀ (fuel : Nat) (s : σ) (m : Nat), Inv s m → m < fuel →
      ∃ s' m', whileLoop cond body fuel s = .ok s' ∧ Inv s' m' ∧ cond s' = .ok false := by
  intro fuel
  induction fuel with
  | zero => intro s m _ h; omega
  | succ fuel ih =>
    intro s m hI hm
    unfold whileLoop
    rcases step s m hI with h | ⟨h, s', m', h1, h2, h3⟩
    · exact ⟨s, m, by rw [h]; rfl, hI, h⟩
    · obtain ⟨s'', m'', e1, e2, e3⟩ := ih s' m' h2 (by omega)
      refine ⟨s'', m'', ?_, e2, e3⟩
      rw [h, ok_bind]
      simp only [if_true]
      rw [h1, ok_bind, e1]

theorem forRange_ok {σ : Type} {body : σ → Nat → Res σ} {Inv : σ → Nat → Prop} {hi : Nat}
    (step : ∀ s i, Inv s i → i < hi → ∃ s', body s i = .ok s' ∧ Inv s' (i + 1)) :
    ∀ (cnt lo : Nat) (s : σ), Inv s lo → lo + cnt = hi →
      ∃ s', forRange body lo cnt s = .ok s' ∧ Inv s' hi := by
  intro cnt
  induction cnt with
  | zero => intro lo s hI h; exact ⟨s, rfl, by rw [← h]; exact hI⟩
  | succ cnt ih =>
    intro lo s hI h
    obtain ⟨s', e1, e2⟩ := step s lo hI (by omega)
    obtain ⟨s'', d1, d2⟩ := ih (lo + 1) s' e2 (by omega)
    refine ⟨s'', ?_, d2⟩
    unfold forRange
    rw [e1, ok_bind, d1]

/-- two runs of a `while` side by side -/
theorem whileLoop_ok2 {σ ρ : Type} {cond : σ → Res Bool} {body : σ → Res σ} {Inv : σ → Nat → Prop}
    {φ : σ → ρ} {condR : ρ → Res Bool} {bodyR : ρ → Res ρ} (hc : ∀ s, condR (φ s) = cond s)
    (step : ∀ s m, Inv s m → cond s = .ok false ∨
      (cond s = .ok true ∧ ∃ s' m', body s = .ok s' ∧ Inv s' m' ∧ m' < m ∧ bodyR (φ s) = .ok (φ s'))) :
    ∀ (fuel : Nat) (s : σ) (m : Nat), Inv s m → m < fuel →
      ∃ s' m', whileLoop cond body fuel s = .ok s' ∧ Inv s' m' ∧ cond s' = .ok false ∧
        whileLoop condR bodyR fuel (φ s) = .ok (φ s') := by
  intro fuel
  induction fuel with
  | zero => intro s m _ h; omega
  | succ fuel ih =>
    intro s m hI hm
    unfold whileLoop
    rw [hc]
    rcases step s m hI with h | ⟨h, s', m', h1, h2, h3, h4⟩
    · exact ⟨s, m, by rw [h]; rfl, hI, h, by rw [h]; rfl⟩
    · obtain ⟨s'', m'', e1, e2, e3, e4⟩ := ih s' m' h2 (by omega)
      rw [h, ok_bind, ok_bind]
      simp only [if_true]
      exact ⟨s'', m'', by rw [h1, ok_bind, e1], e2, e3, by rw [h4, ok_bind, e4]⟩

/-- two runs of a `for` side by side -/
theorem forRange_ok2 {σ ρ : Type} {body : σ → Nat → Res σ} {Inv : σ → Nat → Prop} {hi : Nat}
    {φ : σ → ρ} {bodyR : ρ → Nat → Res ρ}
    (step : ∀ s i, Inv s i → i < hi → ∃ s', body s i = .ok s' ∧ Inv s' (i + 1) ∧ bodyR (φ s) i = .ok (φ s')) :
    ∀ (cnt lo : Nat) (s : σ), Inv s lo → lo + cnt = hi →
      ∃ s', forRange body lo cnt s = .ok s' ∧ Inv s' hi ∧ forRange bodyR lo cnt (φ s) = .ok (φ s') := by
  intro cnt
  induction cnt with
  | zero => intro lo s hI h; exact ⟨s, rfl, by rw [← h]; exact hI, rfl⟩
  | succ cnt ih =>
    intro lo s hI h
    obtain ⟨s', e1, e2, e3⟩ := step s lo hI (by omega)
    obtain ⟨s'', d1, d2, d3⟩ := ih (lo + 1) s' e2 (by omega)
    unfold forRange
    exact ⟨s'', by rw [e1, ok_bind, d1], d2, by rw [e3, ok_bind, d3]⟩

end AHO
