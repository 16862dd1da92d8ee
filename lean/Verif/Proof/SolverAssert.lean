import Verif.Proof.FlowAssert
import Verif.Model.Solver
/-!
# The assertions of the program hold, whatever the costs
-/

namespace AHO.ProblemSolver
open AHO LCT Flow.NoAss
set_option linter.unusedSectionVars false

variable {D : Type} {imax : Int} {fuel : Nat}

/-- no call of the function is a failed assertion -/
def FnNF (m : MuLimit D) : Prop := ∀ x, NF (m.fn x)

variable [Zero D] [One D] [Add D] [Sub D] [Neg D] [Mul D] [Div D] [IntCast D]
  [LT D] [LE D] [DecidableLT D] [DecidableLE D] [BEq D]

theorem checkMus_nf (Mus : List (MuLimit D)) : ∀ (cnt i : Nat), NF (checkMus Mus i cnt)
  | 0, _ => .ok
  | cnt + 1, i => by
    unfold checkMus
    refine (NF.listRd _ _).bind fun m _ => ?_
    split
    · exact checkMus_nf Mus cnt (i + 1)
    · exact .ok

theorem processOmegas_na (n : Nat) (Mus : List (MuLimit D)) : ∀ (os : List (OmegaLimit D)), (∀ o ∈ os, FnNF o.toMuLimit) →
    NA (processOmegas imax fuel n Mus os) (fun r => ∀ os', r = some os' → ∀ o ∈ os', FnNF o.toMuLimit)
  | [], _ => NA.ok fun os' h o ho => by cases h; cases ho
  | it :: rest, ho => by
    have no : NA (Except.ok none : Res (Option (List (OmegaLimit D)))) (fun r => ∀ os', r = some os' → ∀ o ∈ os', FnNF o.toMuLimit) :=
      NA.ok fun os' h => by cases h
    have hf : FnNF it.toMuLimit := ho it (List.mem_cons_self ..)
    unfold processOmegas
    split
    · exact no
    split
    · exact no
    split
    · exact no
    split
    · exact no
    refine NA.bind (P := fun e : OmegaLimit D => FnNF e.toMuLimit) ?_ fun e _ he => ?_
    · unfold OmegaLimit.preProcessing
      exact NA.bind (partitionPoint_nf (descends_nf hf) _ _ _).na fun m _ _ => NA.ok fun x => hf _
    refine NA.bind (NF.listRd _ _).na fun mi _ _ => NA.bind (NF.listRd _ _).na fun mj _ _ => NA.bind (NF.ck _ _).na fun l' _ _ => ?_
    dsimp only
    split
    · exact no
    · refine NA.bind (processOmegas_na n Mus rest fun o h => ho o (List.mem_cons_of_mem _ h)) fun r _ hr => NA.ok fun os' hos o hoo => ?_
      cases r with
      | none => cases hos
      | some os =>
        cases hos
        rcases List.mem_cons.mp hoo with rfl | h
        · exact he
        · exact hr os rfl o h

/-- no call of a function of the solver is a failed assertion -/
def SolverNF (s : ProblemSolver D) : Prop := (∀ i m, 1 ≤ i → s.Mus[i]? = some m → FnNF m) ∧ ∀ o ∈ s.Omegas, FnNF o.toMuLimit

theorem mk'_na {n : Nat} {Mus : List (MuLimit D)} {Omegas : List (OmegaLimit D)} (hm : ∀ i m, 1 ≤ i → Mus[i]? = some m → FnNF m)
    (ho : ∀ o ∈ Omegas, FnNF o.toMuLimit) : NA (mk' imax fuel n Mus Omegas) SolverNF := by
  have inv : SolverNF (invalid : ProblemSolver D) := ⟨fun i m _ h => by simp [invalid] at h, fun o h => by simp [invalid] at h⟩
  unfold mk'
  split
  · exact NA.ok inv
  · refine NA.bind (checkMus_nf _ _ _).na fun b _ _ => ?_
    split
    · exact NA.ok inv
    · refine NA.bind (processOmegas_na n Mus Omegas ho) fun r _ hr => ?_
      cases r with
      | none => exact NA.ok inv
      | some os => exact NA.ok ⟨hm, hr os rfl⟩

theorem mapFind_in : ∀ {mp : LimitMap D} {k v}, mapFind mp k = some v → (k, v) ∈ mp
  | (k', v') :: rest, k, v, h => by
    unfold mapFind at h
    split at h
    · next hk =>
      cases h
      rw [hk]
      exact List.mem_cons_self ..
    · exact List.mem_cons_of_mem _ (mapFind_in h)

theorem mapSet_in : ∀ {mp : LimitMap D} {k v p}, p ∈ mapSet mp k v → p = (k, v) ∨ p ∈ mp
  | [], k, v, p, h => .inl (List.mem_singleton.mp h)
  | (k', v') :: rest, k, v, p, h => by
    unfold mapSet at h
    split at h
    · rcases List.mem_cons.mp h with h | h
      · exact .inl h
      · exact .inr (List.mem_cons_of_mem _ h)
    · split at h
      · rcases List.mem_cons.mp h with h | h
        · exact .inl h
        · exact .inr h
      · rcases List.mem_cons.mp h with h | h
        · exact .inr (by rw [h]; exact List.mem_cons_self ..)
        · rcases mapSet_in h with h | h
          · exact .inl h
          · exact .inr (List.mem_cons_of_mem _ h)

theorem mergeLoop_na : ∀ (os : List (OmegaLimit D)) {mp : LimitMap D}, (∀ o ∈ os, FnNF o.toMuLimit) →
    (∀ p ∈ mp, FnNF p.2.toMuLimit ∧ p.1 = (p.2.i, p.2.j)) →
    NA (mergeLoop imax os mp) (fun r => ∀ mp', r = some mp' → ∀ p ∈ mp', FnNF p.2.toMuLimit)
  | [], mp, _, hm => NA.ok fun mp' h p hp => by cases h; exact (hm p hp).1
  | it :: rest, mp, ho, hm => by
    have hset : ∀ {v : OmegaLimit D}, FnNF v.toMuLimit → ∀ p ∈ mapSet mp (v.i, v.j) v, FnNF p.2.toMuLimit ∧ p.1 = (p.2.i, p.2.j) := by
      intro v hv p hp
      rcases mapSet_in hp with rfl | hp
      · exact ⟨hv, rfl⟩
      · exact hm p hp
    have fin : ∀ e : OmegaLimit D, FnNF e.toMuLimit → NA (match mapFind mp (e.i, e.j) with
        | some v => do
          let (v', err) ← v.merge e
          if err then .ok none
          else mergeLoop imax rest (mapSet mp (e.i, e.j) v')
        | none => mergeLoop imax rest (mapSet mp (e.i, e.j) e)) (fun r => ∀ mp', r = some mp' → ∀ p ∈ mp', FnNF p.2.toMuLimit) := by
      intro e he
      split
      · next v hv =>
        obtain ⟨hvf, hk⟩ := hm _ (mapFind_in hv)
        have k1 : e.i = v.i := congrArg Prod.fst hk
        have k2 : e.j = v.j := congrArg Prod.snd hk
        refine NA.bind (P := fun r : OmegaLimit D × Bool => FnNF r.1.toMuLimit ∧ r.1.i = v.i ∧ r.1.j = v.j) ?_ fun r _ hr => ?_
        · unfold OmegaLimit.merge
          dsimp only
          rw [if_pos ⟨k1.symm, k2.symm⟩]
          exact NA.ok ⟨fun x => (hvf x).bind fun _ _ => (he x).bind fun _ _ => .ok, rfl, rfl⟩
        · obtain ⟨v', err⟩ := r
          obtain ⟨h1, h2, h3⟩ := hr
          cases err with
          | true => exact NA.ok fun mp' h => by cases h
          | false =>
            refine mergeLoop_na rest (fun o h => ho o (List.mem_cons_of_mem _ h)) ?_
            rw [k1, k2, ← h2, ← h3]
            exact hset h1
      · exact mergeLoop_na rest (fun o h => ho o (List.mem_cons_of_mem _ h)) (hset he)
    have h0 := ho it (List.mem_cons_self ..)
    unfold mergeLoop
    by_cases hij : it.i < it.j
    · rw [if_pos hij]
      exact NA.bind (P := fun e : OmegaLimit D => FnNF e.toMuLimit) ⟨reverse_nf _, fun e he => reverse_cb he h0⟩ fun e _ he => fin e he
    · rw [if_neg hij]
      exact fin it h0

theorem musEdges_na {Mus : List (MuLimit D)} (hm : ∀ i m, 1 ≤ i → Mus[i]? = some m → FnNF m) : ∀ (cnt i : Nat), 1 ≤ i →
    NA (musEdges Mus i cnt) (fun r => ∀ e ∈ r, FnNF e.toMuLimit)
  | 0, _, _ => NA.ok fun e h => by cases h
  | cnt + 1, i, hi => by
    unfold musEdges
    refine NA.bind (P := FnNF) ⟨NF.listRd _ _, fun m e => ?_⟩ fun m _ h1 => NA.bind (musEdges_na hm cnt (i + 1) (by omega)) fun r _ hr => NA.ok ?_
    · unfold listRd at e
      split at e
      · next h => cases e; exact hm i _ hi h
      · cases e
    · intro e he
      rcases List.mem_cons.mp he with rfl | he
      · exact h1
      · exact hr e he

theorem mergeLimits_na {s : ProblemSolver D} (hs : SolverNF s) :
    NA (mergeLimits imax s) (fun r => ∀ l, r = some l → ∀ e ∈ l, FnNF e.toMuLimit) := by
  unfold mergeLimits
  refine NA.bind (mergeLoop_na s.Omegas hs.2 (mp := []) fun p h => by cases h) fun r _ hr => ?_
  cases r with
  | none => exact NA.ok fun l h => by cases h
  | some mp =>
    refine NA.bind (musEdges_na hs.1 s.n 1 (Nat.le_refl _)) fun mus _ hmus => NA.ok fun l hl e he => ?_
    cases hl
    rcases List.mem_append.mp he with h | h
    · obtain ⟨p, hp, rfl⟩ := List.mem_map.mp h
      exact hr mp rfl p hp
    · exact hmus e h

theorem calcLoop_nf : ∀ (l : List (OmegaLimit D)) (a : D × D × Int), (∀ e ∈ l, FnNF e.toMuLimit) → NF (calcLoop imax fuel l a)
  | [], _, _ => .ok
  | it :: rest, (vcm, M, U), hl => by
    have hc := hl it (List.mem_cons_self ..)
    unfold calcLoop
    exact (hc _).bind fun _ _ => (hc _).bind fun _ _ => (minimum_nf hc).bind fun _ _ => (NF.ck _ _).bind fun _ _ =>
      calcLoop_nf rest _ fun e he => hl e (List.mem_cons_of_mem _ he)

theorem solve_nf {s : ProblemSolver D} (hs : SolverNF s) : NF (solve imax fuel s) := by
  unfold solve
  split
  · exact .ok
  · refine (mergeLimits_na hs).1.bind fun r e => ?_
    have hr := (mergeLimits_na hs).2 r e
    cases r with
    | none => exact .ok
    | some l =>
      refine (calcLoop_nf l _ (hr l rfl)).bind fun a _ => ?_
      obtain ⟨vcm, M, U⟩ := a
      have hk := Flow.NoAss.mk'_na (imax := imax) (fuel := fuel) s.n M U (hr l rfl)
      refine hk.1.bind fun f ef => (minCost_nf (hk.2 f ef)).bind fun c _ => ?_
      dsimp only
      split <;> exact .ok

theorem run_nf {n : Nat} {Mus : List (MuLimit D)} {Omegas : List (OmegaLimit D)}
    (hm : ∀ i m, 1 ≤ i → Mus[i]? = some m → ∀ x, m.fn x ≠ .error .assertFail) (ho : ∀ o ∈ Omegas, ∀ x, o.fn x ≠ .error .assertFail) :
    run imax fuel n Mus Omegas ≠ .error .assertFail := by
  unfold run
  have hk := mk'_na (imax := imax) (fuel := fuel) (n := n) hm ho
  exact NF.bind hk.1 fun s es => solve_nf (hk.2 s es)

end AHO.ProblemSolver
