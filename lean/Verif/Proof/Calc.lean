import Verif.Proof.Merge
/-!
# `calc`, and the minimum over feasible potentials
-/

namespace AHO
open Spec
set_option linter.unusedSectionVars false

variable {K : Type} [Field K] [LinearOrder K] [IsStrictOrderedRing K]

/-- the larger cost at the ends of the range -/
def mxP (p : Pair K) : K := max (p.B p.l) (p.B p.u)

open Classical in
/-- the least cost on the range -/
noncomputable def mnP (p : Pair K) : K := if h : ∃ m, IsMinCost p m then h.choose else 0

theorem mnP_eq {p : Pair K} {m : K} (h : IsMinCost p m) : mnP p = m := by
  have hex : ∃ m, IsMinCost p m := ⟨m, h⟩
  unfold mnP
  rw [dif_pos hex]
  have h' := hex.choose_spec
  obtain ⟨⟨x, x1, x2, x3⟩, hx⟩ := h
  obtain ⟨⟨y, y1, y2, y3⟩, hy⟩ := h'
  refine le_antisymm ?_ ?_
  · rw [← x3]; exact hy x x1 x2
  · rw [← y3]; exact hx y y1 y2

section
variable {imax : Int} {n : Nat} {R W : Int} {fuel : Nat}

theorem fits_of {p : Pair K} (h : ArcIn n R W p) (hR : 2 * R ≤ imax) : Fits imax (Flow.bits R) p.l p.u := by
  have h1 := h.le
  have h2 := h.lo
  have h3 := h.hi
  exact ⟨h1, by omega, by omega, by omega, Flow.bits_spec (by omega)⟩

theorem minimum_mn {e : OmegaLimit K} {p : Pair K} (he : e.Is p) (h : ArcIn n R W p) (hR : 2 * R ≤ imax)
    (hf : Flow.bits R < fuel) : e.minimum imax fuel = .ok (mnP p) ∧ IsMinCost p (mnP p) := by
  obtain ⟨x, e1, e2, e3, e4⟩ := minimum_spec (imax := imax) (e := e) (g := p.B) hf
    (by rw [he.l, he.u]; exact fits_of h hR) (by rw [he.l, he.u]; exact he.fn) (by rw [he.l, he.u]; exact h.conv)
  rw [he.l] at e2 e4
  rw [he.u] at e3 e4
  have hm : IsMinCost p (p.B x) := ⟨⟨x, e2, e3, rfl⟩, e4⟩
  rw [mnP_eq hm]
  exact ⟨e1, hm⟩

theorem exists_min {p : Pair K} (h : ArcIn n R W p) : IsMinCost p (mnP p) := by
  have hR : 0 ≤ R := by
    have h1 := h.le
    have h2 := h.lo
    have h3 := h.hi
    omega
  exact (minimum_mn (imax := 2 * R) (fuel := Flow.bits R + 1)
    (e := { l := p.l, u := p.u, fn := fun x => .ok (p.B x), i := p.i, j := p.j })
    ⟨rfl, rfl, rfl, rfl, fun _ _ _ => rfl⟩ h le_rfl (by omega)).2

theorem mn_le_mx {p : Pair K} (h : ArcIn n R W p) : mnP p ≤ mxP p :=
  le_trans ((exists_min h).2 p.l le_rfl h.le) (le_max_left _ _)

namespace ProblemSolver

theorem calcLoop_spec (hR : 2 * R ≤ imax) (hf : Flow.bits R < fuel) : ∀ (limits : List (OmegaLimit K)) (ps : List (Pair K))
    (a b : K) (w : Int), List.Forall₂ OmegaLimit.Is limits ps → (∀ p ∈ ps, ArcIn n R W p) →
    ∃ U, calcLoop imax fuel limits (a, b, w) =
        .ok (a + (ps.map mxP).sum, b + (ps.map fun p => mxP p - mnP p).sum, U) ∧
      w ≤ U ∧ (∀ p ∈ ps, p.u - p.l ≤ U) ∧ (U = w ∨ ∃ p ∈ ps, U = p.u - p.l) := by
  intro limits
  induction limits with
  | nil =>
    intro ps a b w h g
    cases h
    exact ⟨w, by simp [calcLoop], le_rfl, by simp, .inl rfl⟩
  | cons e limits ih =>
    intro ps a b w h g
    cases h with
    | cons he hrest =>
      rename_i p ps
      have gp := g p (by simp)
      have l1 := gp.le
      have l2 := gp.lo
      have l3 := gp.hi
      obtain ⟨U, u1, u2, u3, u4⟩ := ih ps (a + mxP p) (b + (mxP p - mnP p)) (max w (p.u - p.l)) hrest
        (fun q hq => g q (List.mem_cons_of_mem _ hq))
      refine ⟨U, ?_, by omega, ?_, ?_⟩
      · unfold calcLoop
        rw [he.l, he.u, he.fn _ le_rfl l1, ok_bind, he.fn _ l1 le_rfl, ok_bind, (minimum_mn he gp hR hf).1, ok_bind,
          ck_ok (by omega) (by omega), ok_bind, dmax_eq]
        have : max (p.B p.l) (p.B p.u) = mxP p := rfl
        rw [this, u1]
        simp only [List.map_cons, List.sum_cons, add_assoc]
      · intro q hq
        rcases List.mem_cons.1 hq with rfl | hq
        · omega
        · exact u3 q hq
      · rcases u4 with u4 | ⟨q, hq, u4⟩
        · rcases le_total (p.u - p.l) w with h' | h'
          · rw [max_eq_left h'] at u4; exact .inl u4
          · rw [max_eq_right h'] at u4; exact .inr ⟨p, by simp, u4⟩
        · exact .inr ⟨q, by simp [hq], u4⟩

end ProblemSolver

/-! ### The penalised problem -/

theorem sum_map_nonneg {α : Type} {f : α → K} : ∀ {ps : List α}, (∀ p ∈ ps, 0 ≤ f p) → 0 ≤ (ps.map f).sum := by
  intro ps
  induction ps with
  | nil => simp
  | cons p ps ih =>
    intro h
    have h1 := h p (by simp)
    have h2 := ih (fun q hq => h q (List.mem_cons_of_mem _ hq))
    simp only [List.map_cons, List.sum_cons]
    linarith

theorem sum_map_le {α : Type} {f g : α → K} : ∀ {ps : List α}, (∀ p ∈ ps, f p ≤ g p) → (ps.map f).sum ≤ (ps.map g).sum := by
  intro ps
  induction ps with
  | nil => simp
  | cons p ps ih =>
    intro h
    have h1 := h p (by simp)
    have h2 := ih (fun q hq => h q (List.mem_cons_of_mem _ hq))
    simp only [List.map_cons, List.sum_cons]
    linarith

theorem le_sum_map {α : Type} {f : α → K} : ∀ {ps : List α}, (∀ p ∈ ps, 0 ≤ f p) → ∀ p ∈ ps, f p ≤ (ps.map f).sum := by
  intro ps
  induction ps with
  | nil => simp
  | cons q ps ih =>
    intro h p hp
    have h1 := h q (by simp)
    have h2 := ih (fun q hq => h q (List.mem_cons_of_mem _ hq))
    have h3 := sum_map_nonneg (fun q hq => h q (List.mem_cons_of_mem _ hq))
    simp only [List.map_cons, List.sum_cons]
    rcases List.mem_cons.1 hp with rfl | hp
    · linarith
    · have := h2 p hp; linarith

/-- `M` of `calc` -/
noncomputable def bigM (ps : List (Pair K)) : K := 1 + (ps.map fun p => mxP p - mnP p).sum

/-- `valid_cost_max` of `calc` -/
noncomputable def vcm (ps : List (Pair K)) : K := (ps.map mxP).sum

variable {ps : List (Pair K)}

theorem spread_le (g : ∀ p ∈ ps, ArcIn n R W p) : ∀ p ∈ ps, mxP p - mnP p ≤ bigM ps := by
  intro p hp
  have := le_sum_map (f := fun p : Pair K => mxP p - mnP p) (fun q hq => sub_nonneg.2 (mn_le_mx (g q hq))) p hp
  unfold bigM
  linarith

theorem bigM_pos (g : ∀ p ∈ ps, ArcIn n R W p) : 0 < bigM ps := by
  have := sum_map_nonneg (f := fun p : Pair K => mxP p - mnP p) (fun q hq => sub_nonneg.2 (mn_le_mx (g q hq)))
  unfold bigM
  linarith

theorem arcOK_of (g : ∀ p ∈ ps, ArcIn n R W p) : ∀ p ∈ ps, ArcOK n (bigM ps) R p := by
  intro p hp
  have h := g p hp
  refine ⟨h.i_le, h.j_le, h.ne, h.le, h.lo, h.hi, h.conv, fun x h1 h2 => ?_⟩
  have s := spread_le g p hp
  have m := (exists_min h).2
  have a1 : p.B (x + 1) ≤ mxP p := convex_le_max h.conv (by omega) h2
  have a2 : p.B x ≤ mxP p := convex_le_max h.conv h1 (by omega)
  have b1 := m x h1 (by omega)
  have b2 := m (x + 1) (by omega) h2
  rw [abs_le]
  constructor <;> linarith

theorem penalised_feasible {M : K} {π : Nat → Int} (h : ArcsFeasible ps π) : penalised M ps π = arcsCost ps π := by
  unfold penalised arcsCost
  congr 1
  refine List.map_congr_left fun p hp => ?_
  have := h p hp
  unfold penal
  rw [if_neg (by omega), if_neg (by omega)]

theorem arcsCost_le (g : ∀ p ∈ ps, ArcIn n R W p) {π : Nat → Int} (h : ArcsFeasible ps π) : arcsCost ps π ≤ vcm ps :=
  sum_map_le fun p hp => convex_le_max (g p hp).conv (h p hp).1 (h p hp).2

theorem penal_ge_mn {M : K} (hM : 0 ≤ M) {p : Pair K} (h : ArcIn n R W p) (x : Int) : mnP p ≤ penal M p.l p.u p.B x := by
  have m := (exists_min h).2
  unfold penal
  split
  · have h1 := m p.l le_rfl h.le
    have h2 : (0 : K) ≤ ((p.l - x : Int) : K) := by exact_mod_cast (by omega : 0 ≤ p.l - x)
    have := mul_nonneg hM h2
    linarith
  · split
    · have h1 := m p.u h.le le_rfl
      have h2 : (0 : K) ≤ ((x - p.u : Int) : K) := by exact_mod_cast (by omega : 0 ≤ x - p.u)
      have := mul_nonneg hM h2
      linarith
    · exact m x (by omega) (by omega)

theorem penal_ge_M {M : K} (hM : 0 ≤ M) {p : Pair K} (h : ArcIn n R W p) {x : Int} (hx : ¬ (p.l ≤ x ∧ x ≤ p.u)) :
    mnP p + M ≤ penal M p.l p.u p.B x := by
  have m := (exists_min h).2
  unfold penal
  split
  · have h1 := m p.l le_rfl h.le
    have h2 : (1 : K) ≤ ((p.l - x : Int) : K) := by exact_mod_cast (by omega : 1 ≤ p.l - x)
    have := mul_le_mul_of_nonneg_left h2 hM
    linarith
  · rw [if_pos (by omega)]
    have h1 := m p.u h.le le_rfl
    have h2 : (1 : K) ≤ ((x - p.u : Int) : K) := by exact_mod_cast (by omega : 1 ≤ x - p.u)
    have := mul_le_mul_of_nonneg_left h2 hM
    linarith

theorem penalised_ge {M : K} (hM : 0 ≤ M) {π : Nat → Int} : ∀ qs : List (Pair K), (∀ p ∈ qs, ArcIn n R W p) → ¬ ArcsFeasible qs π →
    (qs.map mnP).sum + M ≤ penalised M qs π := by
  intro qs
  unfold penalised
  induction qs with
  | nil => intro _ h; exact absurd (fun p hp => by simp at hp) h
  | cons q qs ih =>
    intro g h
    simp only [List.map_cons, List.sum_cons]
    by_cases hq : q.l ≤ π q.i - π q.j ∧ π q.i - π q.j ≤ q.u
    · have h1 := ih (fun p hp => g p (List.mem_cons_of_mem _ hp)) (fun hh => h (arcsFeasible_cons.2 ⟨hq, hh⟩))
      have h2 := penal_ge_mn hM (g q (by simp)) (π q.i - π q.j)
      linarith
    · have h1 := penal_ge_M hM (g q (by simp)) hq
      have h2 : (qs.map mnP).sum ≤ _ := sum_map_le (f := mnP)
        (g := fun p => penal M p.l p.u p.B (π p.i - π p.j))
        fun p hp => penal_ge_mn hM (g p (List.mem_cons_of_mem _ hp)) (π p.i - π p.j)
      linarith

theorem vcm_add_one (ps : List (Pair K)) : vcm ps + 1 = (ps.map mnP).sum + bigM ps := by
  unfold vcm bigM
  have : ∀ qs : List (Pair K), (qs.map mxP).sum + 1 = (qs.map mnP).sum + (1 + (qs.map fun p => mxP p - mnP p).sum) := by
    intro qs
    induction qs with
    | nil => simp
    | cons q qs ih => simp only [List.map_cons, List.sum_cons]; linarith
  exact this ps

theorem penalised_infeasible (g : ∀ p ∈ ps, ArcIn n R W p) {π : Nat → Int} (h : ¬ ArcsFeasible ps π) :
    vcm ps + 1 ≤ penalised (bigM ps) ps π := by
  rw [vcm_add_one]
  exact penalised_ge (bigM_pos g).le ps g h

/-! ### The result -/

/-- the result of a search for the least element of a set of costs -/
def Outcome (S : Set K) (r : Option K) : Prop := (r = none ∧ S = ∅) ∨ ∃ v, r = some v ∧ IsLeast S v

theorem outcome_unique {S : Set K} {r r' : Option K} (h : Outcome S r) (h' : Outcome S r') : r = r' := by
  rcases h with ⟨rfl, h⟩ | ⟨v, rfl, h⟩ <;> rcases h' with ⟨rfl, h'⟩ | ⟨v', rfl, h'⟩
  · rfl
  · rw [h] at h'; exact absurd h'.1 (by simp)
  · rw [h'] at h; exact absurd h.1 (by simp)
  · rw [h.unique h']

/-- costs of feasible potentials -/
def costs (ps : List (Pair K)) : Set K := {v | ∃ π, ArcsFeasible ps π ∧ arcsCost ps π = v}

/-- What a penalty `M` and a threshold `t` need to satisfy. -/
theorem outcome_of_penalty (g : ∀ p ∈ ps, ArcIn n R W p) {v M t : K} (hM : 0 ≤ M) (ht : vcm ps ≤ t) (ht' : t < (ps.map mnP).sum + M)
    (h1 : ∃ π, v = penalised M ps π) (h2 : ∀ π, v ≤ penalised M ps π) :
    Outcome (costs ps) (if t < v then none else some v) := by
  by_cases hfe : ∃ π, ArcsFeasible ps π
  · obtain ⟨π, hπ⟩ := hfe
    have a := h2 π
    rw [penalised_feasible hπ] at a
    have b := (arcsCost_le g hπ).trans ht
    rw [if_neg (not_lt.2 (a.trans b))]
    refine .inr ⟨v, rfl, ?_, ?_⟩
    · obtain ⟨π', hv⟩ := h1
      have : ArcsFeasible ps π' := by
        by_contra h
        have := penalised_ge hM ps g h
        linarith
      exact ⟨π', this, by rw [hv, penalised_feasible this]⟩
    · rintro w ⟨π', f1, rfl⟩
      have := h2 π'
      rwa [penalised_feasible f1] at this
  · obtain ⟨π', hv⟩ := h1
    have := penalised_ge hM ps g (π := π') (fun h => hfe ⟨_, h⟩)
    rw [if_pos (by linarith)]
    refine .inl ⟨rfl, ?_⟩
    ext w
    simp only [costs, Set.mem_ofPred_eq, Set.mem_empty_iff_false, iff_false]
    rintro ⟨π, f, -⟩
    exact hfe ⟨π, f⟩

theorem outcome_of_min (g : ∀ p ∈ ps, ArcIn n R W p) {v : K} (h1 : ∃ π, v = penalised (bigM ps) ps π)
    (h2 : ∀ π, v ≤ penalised (bigM ps) ps π) :
    Outcome (costs ps) (if vcm ps < v then none else some v) :=
  outcome_of_penalty g (bigM_pos g).le le_rfl (by rw [← vcm_add_one]; linarith) h1 h2

end
end AHO
