import Verif.Model.Solver
import Verif.Proof.SafeFlow
/-!
# Memory safety of `ProblemSolver`, whatever the costs and the arithmetic
-/

namespace AHO
namespace ProblemSolver
variable {D : Type}

/-- the entries which have been checked can be called -/
def MusOk (Mus : List (MuLimit D)) (lo hi : Nat) : Prop := ∀ i, lo ≤ i → i < hi → ∃ m, Mus[i]? = some m ∧ m.Callable

theorem checkMus_safe {Mus : List (MuLimit D)} (hm : ∀ i m, 1 ≤ i → Mus[i]? = some m → ∀ x, m.l ≤ x → x ≤ m.u → Safe (m.fn x) (fun _ => True)) :
    ∀ (cnt i : Nat), 1 ≤ i → i + cnt ≤ Mus.length → Safe (checkMus Mus i cnt) (fun b => b = true → MusOk Mus i (i + cnt))
  | 0, i, _, _ => fun _ j h1 h2 => absurd h2 (by omega)
  | cnt + 1, i, hi, hl => by
    unfold checkMus
    refine (Safe.listRd (by omega : i < Mus.length)).bind fun m h => ?_
    obtain ⟨hmi, -⟩ := h
    split
    · next hle =>
      refine (checkMus_safe hm cnt (i + 1) (by omega) (by omega)).mono fun b hb hbt j h1 h2 => ?_
      by_cases hj : j = i
      · subst hj
        have : Mus[j]? = some m := by rw [List.getElem?_eq_getElem (by omega), hmi]
        exact ⟨m, this, hle, hm j m hi this⟩
      · exact hb hbt j (by omega) (by omega)
    · exact fun h => by cases h

theorem listRd_mus {Mus : List (MuLimit D)} {lo hi i : Nat} (h : MusOk Mus lo hi) (h1 : lo ≤ i) (h2 : i < hi) :
    Safe (listRd Mus i) MuLimit.Callable := by
  obtain ⟨m, hm, hc⟩ := h i h1 h2
  unfold listRd
  rw [hm]
  exact hc

/-- what the constructor guarantees about an entry of `Omegas` -/
def OmegaOk (n : Nat) (e : OmegaLimit D) : Prop := 1 ≤ e.i ∧ e.i ≤ n ∧ 1 ≤ e.j ∧ e.j ≤ n ∧ e.i ≠ e.j ∧ e.toMuLimit.Callable

section
variable [LT D] [DecidableLT D]

theorem processOmegas_safe (imax : Int) (fuel n : Nat) {Mus : List (MuLimit D)} (hm : MusOk Mus 1 (1 + n)) : ∀ (os : List (OmegaLimit D)),
    (∀ o, o ∈ os → ∀ x, o.l ≤ x → x ≤ o.u → Safe (o.fn x) (fun _ => True)) →
    Safe (processOmegas imax fuel n Mus os) (fun r => ∀ os', r = some os' → ∀ o, o ∈ os' → OmegaOk n o)
  | [], _ => fun os' h o ho => by
    cases h
    cases ho
  | it :: rest, ho => by
    unfold processOmegas
    have none : Safe (Except.ok none : Res (Option (List (OmegaLimit D)))) (fun r => ∀ os', r = some os' → ∀ o, o ∈ os' → OmegaOk n o) :=
      fun os' h => by cases h
    split
    · exact none
    split
    · exact none
    split
    · exact none
    split
    · exact none
    next h1 h2 h3 h4 =>
    have h1 := Decidable.not_not.mp h1
    have h2 := Decidable.not_not.mp h2
    have h3 := Decidable.not_not.mp h3
    have h4 := Decidable.not_not.mp h4
    have hc : it.toMuLimit.Callable := ⟨h4, ho it (List.mem_cons_self ..)⟩
    refine (preProcessing_safe imax fuel hc).bind fun e he => ?_
    obtain ⟨ei, ej, eu, ef⟩ := he
    refine (listRd_mus hm (by omega) (by omega)).bind fun mi _ => ?_
    refine (listRd_mus hm (by omega) (by omega)).bind fun mj _ => ?_
    refine (Safe.ck imax _).bind fun l' _ => ?_
    dsimp only
    split
    · exact none
    · next hl =>
      have hl := Decidable.not_not.mp hl
      refine (processOmegas_safe imax fuel n hm rest fun o h => ho o (List.mem_cons_of_mem _ h)).bind fun r hr => ?_
      intro os' hos o hoo
      cases r with
      | none => cases hos
      | some os =>
        cases hos
        rcases List.mem_cons.mp hoo with rfl | h
        · refine ⟨?_, ?_, ?_, ?_, ?_, hl, fun x _ hx => ef x (by rw [← eu]; exact hx)⟩
          · show 1 ≤ e.i; omega
          · show e.i ≤ n; omega
          · show 1 ≤ e.j; omega
          · show e.j ≤ n; omega
          · show e.i ≠ e.j; rw [ei, ej]; exact h3
        · exact hr os rfl o h

/-- what the constructor guarantees: either it failed, or all limits have been checked -/
def SolverOk (s : ProblemSolver D) : Prop :=
  s.n = sizeMax ∨ (MusOk s.Mus 1 (1 + s.n) ∧ ∀ o, o ∈ s.Omegas → OmegaOk s.n o)

theorem mk'_safe (imax : Int) (fuel : Nat) {n : Nat} (hn : n + 1 < 2 ^ 64) {Mus : List (MuLimit D)} {Omegas : List (OmegaLimit D)}
    (hm : ∀ i m, 1 ≤ i → Mus[i]? = some m → ∀ x, m.l ≤ x → x ≤ m.u → Safe (m.fn x) (fun _ => True))
    (ho : ∀ o, o ∈ Omegas → ∀ x, o.l ≤ x → x ≤ o.u → Safe (o.fn x) (fun _ => True)) :
    Safe (mk' imax fuel n Mus Omegas) SolverOk := by
  unfold mk'
  rw [Nat.mod_eq_of_lt hn]
  split
  · exact .inl rfl
  · next hl =>
    have hl := Decidable.not_not.mp hl
    refine (checkMus_safe hm n 1 (Nat.le_refl _) (by omega)).bind fun b hb => ?_
    cases b with
    | false => exact .inl rfl
    | true =>
      have hb := hb rfl
      refine (processOmegas_safe imax fuel n hb Omegas ho).bind fun r hr => ?_
      cases r with
      | none => exact .inl rfl
      | some os => exact .inr ⟨hb, hr os rfl⟩

end

/-- the keys are those of the values -/
def MapOk (n : Nat) (mp : LimitMap D) : Prop := ∀ p, p ∈ mp → OmegaOk n p.2 ∧ p.1 = (p.2.i, p.2.j)

theorem mapFind_mem : ∀ {mp : LimitMap D} {k v}, mapFind mp k = some v → (k, v) ∈ mp
  | (k', v') :: rest, k, v, h => by
    unfold mapFind at h
    split at h
    · next hk =>
      cases h
      rw [hk]
      exact List.mem_cons_self ..
    · exact List.mem_cons_of_mem _ (mapFind_mem h)

theorem mapSet_mem : ∀ {mp : LimitMap D} {k v p}, p ∈ mapSet mp k v → p = (k, v) ∨ p ∈ mp
  | [], k, v, p, h => .inl (List.mem_singleton.mp h)
  | (k', v') :: rest, k, v, p, h => by
    unfold mapSet at h
    split at h
    · rcases List.mem_cons.mp h with h | h
      · exact .inl h
      · exact .inr (List.mem_cons_of_mem _ h)
    · split at h
      · rcases List.mem_cons.mp h with h | h
        · exact .inl h
        · exact .inr h
      · rcases List.mem_cons.mp h with h | h
        · exact .inr (by rw [h]; exact List.mem_cons_self ..)
        · rcases mapSet_mem h with h | h
          · exact .inl h
          · exact .inr (List.mem_cons_of_mem _ h)

theorem MapOk.set {n : Nat} {mp : LimitMap D} (h : MapOk n mp) {v : OmegaLimit D} {k : Nat × Nat} (hv : OmegaOk n v) (hk : k = (v.i, v.j)) :
    MapOk n (mapSet mp k v) := fun p hp => by
  rcases mapSet_mem hp with rfl | hp
  · exact ⟨hv, hk⟩
  · exact h p hp

theorem mergeLoop_safe [Add D] (imax : Int) {n : Nat} : ∀ (os : List (OmegaLimit D)) {mp : LimitMap D},
    (∀ o, o ∈ os → OmegaOk n o) → MapOk n mp → Safe (mergeLoop imax os mp) (fun r => ∀ mp', r = some mp' → MapOk n mp')
  | [], mp, _, hm => fun mp' h => by
    cases h
    exact hm
  | it :: rest, mp, ho, hm => by
    unfold mergeLoop
    have h0 := ho it (List.mem_cons_self ..)
    have fin : ∀ e : OmegaLimit D, OmegaOk n e → Safe (match mapFind mp (e.i, e.j) with
        | some v => do
          let (v', err) ← v.merge e
          if err then .ok none
          else mergeLoop imax rest (mapSet mp (e.i, e.j) v')
        | none => mergeLoop imax rest (mapSet mp (e.i, e.j) e)) (fun r => ∀ mp', r = some mp' → MapOk n mp') := by
      intro e he
      split
      · next v hv =>
        obtain ⟨hvo, hk⟩ := hm _ (mapFind_mem hv)
        have k1 : e.i = v.i := congrArg Prod.fst hk
        have k2 : e.j = v.j := congrArg Prod.snd hk
        have hvo : OmegaOk n v := hvo
        refine (merge_safe hvo.2.2.2.2.2 he.2.2.2.2.2).bind fun r hr => ?_
        obtain ⟨v', err⟩ := r
        obtain ⟨h1, h2, h3⟩ := hr
        have h1 : v'.i = v.i := h1
        have h2 : v'.j = v.j := h2
        cases err with
        | true => exact fun mp' h => by cases h
        | false =>
          obtain ⟨a, b, c, d, f, _⟩ := hvo
          refine mergeLoop_safe imax rest (fun o h => ho o (List.mem_cons_of_mem _ h)) (hm.set ?_ ?_)
          · exact ⟨by omega, by omega, by omega, by omega, by omega, h3 rfl⟩
          · rw [h1, h2, k1, k2]
      · exact mergeLoop_safe imax rest (fun o h => ho o (List.mem_cons_of_mem _ h)) (hm.set he rfl)
    by_cases hij : it.i < it.j
    · rw [if_pos hij]
      obtain ⟨a, b, c, d, f, g⟩ := h0
      refine (reverse_safe imax g).bind fun e he => ?_
      obtain ⟨e1, e2, e3⟩ := he
      exact fin e ⟨by omega, by omega, by omega, by omega, by omega, e3⟩
    · rw [if_neg hij]
      exact fin it h0

theorem musEdges_safe {Mus : List (MuLimit D)} {n : Nat} : ∀ (cnt i : Nat), 1 ≤ i → i + cnt = n + 1 → MusOk Mus i (i + cnt) →
    Safe (musEdges Mus i cnt) (fun r => (∀ e, e ∈ r → Flow.EdgeOk n e) ∧ ∀ x, i ≤ x → x < i + cnt → ∃ e, e ∈ r ∧ e.i = x ∧ e.j = 0)
  | 0, i, _, _, _ => .ok ⟨fun e h => (List.not_mem_nil h).elim, fun x h1 h2 => absurd h2 (by omega)⟩
  | cnt + 1, i, h1, h2, hm => by
    unfold musEdges
    refine (listRd_mus hm (Nat.le_refl _) (by omega)).bind fun m hc => ?_
    refine (musEdges_safe (n := n) cnt (i + 1) (by omega) (by omega) fun j a b => hm j (by omega) (by omega)).bind fun r hr => ?_
    refine ⟨fun e he => ?_, fun x a b => ?_⟩
    · rcases List.mem_cons.mp he with rfl | he
      · exact ⟨by show i ≤ n; omega, Nat.zero_le _, by show i ≠ 0; omega, hc⟩
      · exact hr.1 e he
    · by_cases hx : x = i
      · exact ⟨_, List.mem_cons_self .., hx.symm, rfl⟩
      · obtain ⟨e, he, h⟩ := hr.2 x (by omega) (by omega)
        exact ⟨e, List.mem_cons_of_mem _ he, h⟩

/-- what `merge_limits` guarantees -/
def LimitsOk (n : Nat) (l : List (OmegaLimit D)) : Prop :=
  (∀ e, e ∈ l → Flow.EdgeOk n e) ∧ (l ≠ [] → ∀ x, x ≤ n → ∃ e, e ∈ l ∧ (e.i = x ∨ e.j = x))

theorem mergeLimits_safe [Add D] (imax : Int) {s : ProblemSolver D} (hm : MusOk s.Mus 1 (1 + s.n)) (ho : ∀ o, o ∈ s.Omegas → OmegaOk s.n o) :
    Safe (mergeLimits imax s) (fun r => ∀ l, r = some l → LimitsOk s.n l) := by
  unfold mergeLimits
  refine (mergeLoop_safe imax (n := s.n) s.Omegas ho (mp := []) fun p h => by cases h).bind fun r hr => ?_
  cases r with
  | none => exact fun l h => by cases h
  | some mp =>
    refine (musEdges_safe (n := s.n) s.n 1 (Nat.le_refl _) (by omega) hm).bind fun mus hmus => ?_
    intro l hl
    cases hl
    have hmp := hr mp rfl
    have edge : ∀ e, e ∈ mp.map Prod.snd ++ mus → Flow.EdgeOk s.n e := by
      intro e he
      rcases List.mem_append.mp he with h | h
      · obtain ⟨p, hp, rfl⟩ := List.mem_map.mp h
        obtain ⟨⟨a, b, c, d, f, g⟩, _⟩ := hmp p hp
        exact ⟨b, d, f, g⟩
      · exact hmus.1 e h
    refine ⟨edge, fun hne x hx => ?_⟩
    have h1 : 1 ≤ s.n := by
      obtain ⟨e, l, hl⟩ := List.exists_cons_of_ne_nil hne
      obtain ⟨a, b, c, _⟩ := edge e (by rw [hl]; exact List.mem_cons_self ..)
      omega
    by_cases hx0 : x = 0
    · obtain ⟨e, he, _, hj⟩ := hmus.2 1 (Nat.le_refl _) (by omega)
      exact ⟨e, List.mem_append_right _ he, .inr (by omega)⟩
    · obtain ⟨e, he, hi, _⟩ := hmus.2 x (by omega) (by omega)
      exact ⟨e, List.mem_append_right _ he, .inl hi⟩

section
variable [Zero D] [One D] [Add D] [Sub D] [LT D] [DecidableLT D]

omit [Zero D] [One D] in
theorem calcLoop_safe (imax : Int) (fuel : Nat) {n : Nat} : ∀ (l : List (OmegaLimit D)) (a : D × D × Int), (∀ e, e ∈ l → Flow.EdgeOk n e) →
    Safe (calcLoop imax fuel l a) (fun _ => True)
  | [], _, _ => trivial
  | it :: rest, (vcm, M, U), hl => by
    unfold calcLoop
    have hc := (hl it (List.mem_cons_self ..)).2.2.2
    refine (hc.2 it.l (Int.le_refl _) hc.1).bind fun a _ => ?_
    refine (hc.2 it.u hc.1 (Int.le_refl _)).bind fun b _ => ?_
    refine (minimum_safe imax fuel hc).bind fun m _ => ?_
    refine (Safe.ck imax _).bind fun w _ => ?_
    exact calcLoop_safe imax fuel rest _ fun e he => hl e (List.mem_cons_of_mem _ he)

end

variable [Zero D] [One D] [Add D] [Sub D] [Neg D] [Mul D] [Div D] [IntCast D]
  [LT D] [LE D] [DecidableLT D] [DecidableLE D] [BEq D]

theorem solve_safe (imax : Int) (fuel : Nat) {s : ProblemSolver D} (hs : SolverOk s) : Safe (solve imax fuel s) (fun _ => True) := by
  unfold solve
  split
  · trivial
  · next hn =>
    obtain ⟨hm, ho⟩ := hs.resolve_left hn
    refine (mergeLimits_safe imax hm ho).bind fun r hr => ?_
    cases r with
    | none => trivial
    | some l =>
      obtain ⟨h1, h2⟩ := hr l rfl
      refine (calcLoop_safe imax fuel l _ h1).bind fun a _ => ?_
      obtain ⟨vcm, M, U⟩ := a
      refine (Flow.mk'_safe imax fuel s.n M U h1 h2).bind fun f hf => ?_
      obtain ⟨E, G, N, o⟩ := hf
      refine (Flow.minCost_safe N imax fuel o).bind fun c _ => ?_
      dsimp only
      split
      · trivial
      · trivial

theorem run_safe (imax : Int) (fuel : Nat) {n : Nat} (hn : n + 1 < 2 ^ 64) {Mus : List (MuLimit D)} {Omegas : List (OmegaLimit D)}
    (hm : ∀ i m, 1 ≤ i → Mus[i]? = some m → ∀ x, m.l ≤ x → x ≤ m.u → ∃ v, m.fn x = .ok v)
    (ho : ∀ o, o ∈ Omegas → ∀ x, o.l ≤ x → x ≤ o.u → ∃ v, o.fn x = .ok v) :
    Safe (run imax fuel n Mus Omegas) (fun _ => True) := by
  unfold run
  refine (mk'_safe imax fuel hn (fun i m h1 h2 x h3 h4 => ?_) fun o h1 x h3 h4 => ?_).bind fun s hs => solve_safe imax fuel hs
  · obtain ⟨v, hv⟩ := hm i m h1 h2 x h3 h4
    rw [hv]
    trivial
  · obtain ⟨v, hv⟩ := ho o h1 x h3 h4
    rw [hv]
    trivial

end ProblemSolver
end AHO
