import Verif.Proof.SolverCost
import Verif.Proof.FlowTime
import Verif.Proof.Solve
/-!
# Running time of the parts of the solver outside the phases
-/

namespace AHO
open Spec
open LCT (bind_ok)
set_option linter.unusedSectionVars false

/-- a cost without rounds and without steps in the link-cut tree -/
structure Light (c : Cost) (i v : Nat) : Prop where
  rounds : c.rounds = 0
  steps : c.steps = 0
  walk : c.walk = 0
  iters : c.iters ≤ i
  evals : c.evals ≤ v

theorem Light.add {c d : Cost} {i v j w : Nat} (h : Light c i v) (h' : Light d j w) : Light (c + d) (i + j) (v + w) :=
  ⟨by rw [Flow.Cost.add_rounds, h.rounds, h'.rounds], by rw [Flow.Cost.add_steps, h.steps, h'.steps],
    by rw [Flow.Cost.add_walk, h.walk, h'.walk], by rw [Flow.Cost.add_iters]; exact Nat.add_le_add h.iters h'.iters,
    by rw [Flow.Cost.add_evals]; exact Nat.add_le_add h.evals h'.evals⟩

theorem Light.mono {c : Cost} {i v j w : Nat} (h : Light c i v) (hi : i ≤ j) (hv : v ≤ w) : Light c j w :=
  ⟨h.rounds, h.steps, h.walk, h.iters.trans hi, h.evals.trans hv⟩

theorem Light.mk' (i v : Nat) : Light ⟨0, 0, 0, i, v⟩ i v := ⟨rfl, rfl, rfl, le_rfl, le_rfl⟩

theorem Light.zero : Light 0 0 0 := ⟨rfl, rfl, rfl, le_rfl, le_rfl⟩

/-- a nonempty range with fewer than `2 ^ L` steps -/
def Short (L : Nat) (l u : Int) : Prop := l ≤ u ∧ u - l < 2 ^ L

theorem partitionPointC_le {imax : Int} {pred : Int → Res Bool} : ∀ (fuel L : Nat) (l r : Int) {k : Nat} {x : Int}, Short L l r →
    partitionPointC imax pred fuel l r = .ok (k, x) → k ≤ L := by
  intro fuel
  induction fuel with
  | zero => intro L l r k x _ e; cases e
  | succ fuel ih =>
    intro L l r k x hs e
    unfold partitionPointC at e
    split at e
    · rename_i hne
      obtain ⟨d, e1, e⟩ := bind_ok e
      obtain ⟨mid, e2, e⟩ := bind_ok e
      obtain ⟨b, -, e⟩ := bind_ok e
      have hck : ∀ {x y : Int}, ck imax x = .ok y → y = x := by
        intro x y h
        unfold ck at h
        split at h
        · cases h; rfl
        · cases h
      have h1 := hck e1
      have h2 := hck e2
      obtain ⟨s1, s2⟩ := hs
      have hd : d.tdiv 2 = d / 2 := Int.tdiv_eq_ediv_of_nonneg (by omega)
      rw [hd] at h2
      obtain ⟨L', rfl⟩ : ∃ L', L = L' + 1 := by
        cases L with
        | zero => simp at s2; omega
        | succ L => exact ⟨L, rfl⟩
      rw [pow_succ] at s2
      split at e
      · obtain ⟨l', e3, e⟩ := bind_ok e
        have h3 := hck e3
        obtain ⟨⟨k', x'⟩, e4, e⟩ := bind_ok e
        cases e
        have := ih L' _ _ ⟨by omega, by omega⟩ e4
        omega
      · obtain ⟨⟨k', x'⟩, e4, e⟩ := bind_ok e
        cases e
        have := ih L' _ _ ⟨by omega, by omega⟩ e4
        omega
    · cases e; exact Nat.zero_le _

section
variable {D : Type} [LT D] [DecidableLT D] {imax : Int} {fuel L : Nat} {c : Cost}

theorem preProcessingC_light {e e' : OmegaLimit D} (hs : Short L e.l e.u) (h : e.preProcessingC imax fuel = .ok (c, e')) : Light c L (2 * L) := by
  unfold OmegaLimit.preProcessingC at h
  obtain ⟨⟨k, x⟩, e1, h⟩ := bind_ok h
  cases h
  have := partitionPointC_le _ _ _ _ hs e1
  exact (Light.mk' _ _).mono this (by omega)

theorem minimumC_light {e : OmegaLimit D} {v : D} (hs : Short L e.l e.u) (h : e.minimumC imax fuel = .ok (c, v)) : Light c L (2 * L + 1) := by
  unfold OmegaLimit.minimumC at h
  obtain ⟨⟨k, x⟩, e1, h⟩ := bind_ok h
  obtain ⟨v', -, h⟩ := bind_ok h
  cases h
  have := partitionPointC_le _ _ _ _ hs e1
  exact (Light.mk' _ _).mono this (by omega)

end

namespace Flow
variable {D : Type} [Zero D] [One D] [Add D] [Sub D] [Neg D] [BEq D] [LT D] [LE D] [DecidableLT D] [DecidableLE D]
variable {imax : Int} {fuel : Nat} {c : Cost}

theorem epsilonLoopC_pow {n : Nat} {U : Int} : ∀ (fuel k0 : Nat) (eps : Int) {k : Nat} {eps' : Int},
    whileLoop
    (fun (ke : Nat × Int) => do
      let n1 ← toInt imax (n + 1)
      let a ← ck imax (2 * n1)
      let b ← ck imax (a * U)
      .ok (decide (ke.2 < b)))
    (fun ke => do
      let eps ← ck imax (ke.2 * 2)
      if eps ≠ 0 then .ok (ke.1 + 1, eps) else .error .assertFail)
    fuel (k0, eps) = .ok (k, eps') → eps' * 2 ^ k0 = eps * 2 ^ k := by
  intro fuel
  induction fuel with
  | zero => intro k0 eps k eps' e; cases e
  | succ fuel ih =>
    intro k0 eps k eps' e
    unfold whileLoop at e
    obtain ⟨b, -, e⟩ := bind_ok e
    cases b with
    | false => cases e; rfl
    | true =>
      obtain ⟨⟨k1, eps1⟩, e1, e⟩ := bind_ok e
      obtain ⟨eps2, e2, e1⟩ := bind_ok e1
      split at e1
      · cases e1
        have h1 := ih _ _ e
        have h2 : eps1 = eps * 2 := by
          unfold ck at e2
          split at e2
          · cases e2; rfl
          · cases e2
        rw [pow_succ, h2] at h1
        have : (eps' * 2 ^ k0) * 2 = (eps * 2 ^ k) * 2 := by linarith
        omega
      · cases e1

theorem mkC_light {n : Nat} {M : D} {U : Int} {limits : List (OmegaLimit D)} {s : Flow D} (e : Flow.mkC imax fuel n M U limits = .ok (c, s))
    {x : Nat} (hx : s.epsilon = 2 ^ x) (hs : s.edges.size = 2 * limits.length) : Light c (x + (n + 1) + 3 * limits.length) 0 := by
  unfold mkC at e
  obtain ⟨⟨k, eps⟩, e1, e⟩ := bind_ok e
  obtain ⟨n1, -, e⟩ := bind_ok e
  dsimp only at e
  split at e
  · split at e
    · obtain ⟨E, -, e⟩ := bind_ok e
      obtain ⟨G, -, e⟩ := bind_ok e
      cases e
      have h1 := epsilonLoopC_pow _ _ _ e1
      have hk : k = x := by
        have hx : eps = 2 ^ x := hx
        rw [hx] at h1
        have h2 : (2 : Int) ^ x = 2 ^ k := by simpa using h1
        exact (Int.pow_right_injective (by decide) h2).symm
      subst hk
      have hs : E.size = 2 * limits.length := hs
      exact (Light.mk' _ _).mono (by omega) le_rfl
    · cases e
  · cases e

variable [Mul D] [Div D] [IntCast D] {L : Nat}

theorem minsC_light : ∀ (cnt i : Nat) {c0 : Cost} {a : D} {s : Flow D} {cas : Cost × D × Flow D},
    (∀ e, e < s.edges.size → Short L (s.edges.get e).l (s.edges.get e).u) →
    forRange (fun (cas : Cost × D × Flow D) i => do let (c, as) ← addEdgeMinC imax fuel cas.2 i; .ok (cas.1 + c, as)) i cnt (c0, a, s) = .ok cas →
    ∃ c, cas.1 = c0 + c ∧ Light c (cnt * (1 + L)) (cnt * (2 * L + 1)) := by
  intro cnt
  induction cnt with
  | zero =>
    intro i c0 a s cas _ e
    cases e
    exact ⟨0, by cases c0; rfl, by simpa using Light.zero⟩
  | succ cnt ih =>
    intro i c0 a s cas hs e
    unfold forRange at e
    obtain ⟨cas1, e1, e⟩ := bind_ok e
    obtain ⟨⟨c1, a1, s1⟩, e2, e1⟩ := bind_ok e1
    cases e1
    unfold addEdgeMinC at e2
    dsimp only at e2
    obtain ⟨ed, q1, e2⟩ := bind_ok e2
    obtain ⟨x, -, e2⟩ := bind_ok e2
    obtain ⟨E, q2, e2⟩ := bind_ok e2
    obtain ⟨⟨c2, m⟩, q3, e2⟩ := bind_ok e2
    cases e2
    obtain ⟨hi, rfl⟩ := vrd_inv q1
    obtain ⟨rfl, -⟩ := wr_inv q2
    have l1 := minimumC_light (L := L) (by exact hs _ hi) q3
    obtain ⟨c3, h3, l3⟩ := ih (i + 1) (fun e he => by
      show Short L ((s.edges.set i _).get e).l ((s.edges.set i _).get e).u
      rw [Vec.set_get]
      split
      · rename_i h; subst h; exact hs _ hi
      · exact hs e he) e
    refine ⟨⟨0, 0, 0, 1, 0⟩ + c2 + c3, ?_, ?_⟩
    · rw [h3]
      show Cost.mk _ _ _ _ _ = Cost.mk _ _ _ _ _
      simp only [Cost.mk.injEq, Cost.add_rounds, Cost.add_steps, Cost.add_walk, Cost.add_iters, Cost.add_evals]
      omega
    · refine (((Light.mk' 1 0).add l1).add l3).mono ?_ ?_
      · rw [Nat.add_mul cnt 1]; omega
      · rw [Nat.add_mul cnt 1]; omega

end Flow

namespace ProblemSolver
variable {D : Type} {imax : Int} {fuel n L : Nat} {c : Cost}

theorem checkMusC_le {Mus : List (MuLimit D)} : ∀ (cnt i : Nat) {k : Nat} {b : Bool}, checkMusC Mus i cnt = .ok (k, b) → k ≤ cnt := by
  intro cnt
  induction cnt with
  | zero => intro i k b e; cases e; exact le_rfl
  | succ cnt ih =>
    intro i k b e
    unfold checkMusC at e
    obtain ⟨m, -, e⟩ := bind_ok e
    split at e
    · obtain ⟨⟨k1, b1⟩, e1, e⟩ := bind_ok e
      cases e
      have := ih _ e1
      omega
    · cases e; omega

section
variable [LT D] [DecidableLT D]

theorem processOmegasC_light {Mus : List (MuLimit D)} : ∀ (Os : List (OmegaLimit D)) {c : Cost} {r : Option (List (OmegaLimit D))},
    (∀ o ∈ Os, o.u - o.l < 2 ^ L) → processOmegasC imax fuel n Mus Os = .ok (c, r) →
    Light c (Os.length * (1 + L)) (Os.length * (2 * L)) ∧ ∀ Os', r = some Os' → Os'.length = Os.length := by
  intro Os
  induction Os with
  | nil => intro c r _ e; cases e; exact ⟨by simpa using Light.zero, fun Os' h => by cases h; rfl⟩
  | cons it rest ih =>
    intro c r hs e
    have one : Light ⟨0, 0, 0, 1, 0⟩ ((it :: rest).length * (1 + L)) ((it :: rest).length * (2 * L)) := by
      refine (Light.mk' 1 0).mono ?_ (Nat.zero_le _)
      rw [List.length_cons, Nat.add_mul]; omega
    unfold processOmegasC at e
    split at e
    · cases e; exact ⟨one, fun _ h => by cases h⟩
    split at e
    · cases e; exact ⟨one, fun _ h => by cases h⟩
    split at e
    · cases e; exact ⟨one, fun _ h => by cases h⟩
    split at e
    · cases e; exact ⟨one, fun _ h => by cases h⟩
    rename_i hle
    obtain ⟨⟨c1, it1⟩, e1, e⟩ := bind_ok e
    have l1 := preProcessingC_light (L := L) ⟨by simpa using hle, hs it (by simp)⟩ e1
    obtain ⟨mi, -, e⟩ := bind_ok e
    obtain ⟨mj, -, e⟩ := bind_ok e
    obtain ⟨l', -, e⟩ := bind_ok e
    dsimp only at e
    split at e
    · cases e
      refine ⟨((Light.mk' 1 0).add l1).mono ?_ ?_, fun _ h => by cases h⟩
      · rw [List.length_cons, Nat.add_mul]; omega
      · rw [List.length_cons, Nat.add_mul]; omega
    · obtain ⟨⟨c2, r2⟩, e2, e⟩ := bind_ok e
      cases e
      obtain ⟨l2, h2⟩ := ih (fun o ho => hs o (List.mem_cons_of_mem _ ho)) e2
      refine ⟨(((Light.mk' 1 0).add l1).add l2).mono ?_ ?_, fun Os' h => ?_⟩
      · rw [List.length_cons, Nat.add_mul]; omega
      · rw [List.length_cons, Nat.add_mul]; omega
      · cases r2 with
        | none => cases h
        | some Os2 => cases h; simp [h2 Os2 rfl]

theorem mkC_light {Mus : List (MuLimit D)} {Os : List (OmegaLimit D)} {s : ProblemSolver D} (hs : ∀ o ∈ Os, o.u - o.l < 2 ^ L)
    (e : mkC imax fuel n Mus Os = .ok (c, s)) :
    Light c (n + Os.length * (1 + L)) (Os.length * (2 * L)) ∧ (s.n = sizeMax ∨ s.n = n ∧ s.Omegas.length = Os.length) := by
  unfold mkC at e
  split at e
  · cases e; exact ⟨Light.zero.mono (Nat.zero_le _) (Nat.zero_le _), .inl rfl⟩
  · obtain ⟨⟨k, b⟩, e1, e⟩ := bind_ok e
    have hk := checkMusC_le _ _ e1
    dsimp only at e
    split at e
    · cases e; exact ⟨(Light.mk' k 0).mono (by omega) (Nat.zero_le _), .inl rfl⟩
    · obtain ⟨⟨c1, r⟩, e2, e⟩ := bind_ok e
      obtain ⟨l1, h1⟩ := processOmegasC_light _ hs e2
      cases r with
      | none => cases e; exact ⟨((Light.mk' k 0).add l1).mono (by omega) (by omega), .inl rfl⟩
      | some Os' => cases e; exact ⟨((Light.mk' k 0).add l1).mono (by omega) (by omega), .inr ⟨rfl, h1 _ rfl⟩⟩

end

theorem length_mapSet (mp : LimitMap D) (k : Nat × Nat) (v : OmegaLimit D) : (mapSet mp k v).length ≤ mp.length + 1 := by
  induction mp with
  | nil => exact le_rfl
  | cons a mp ih =>
    obtain ⟨k', v'⟩ := a
    unfold mapSet
    split
    · simp
    · split
      · simp
      · simp only [List.length_cons]; omega

theorem mergeLoopC_le [Add D] : ∀ (Os : List (OmegaLimit D)) (mp : LimitMap D) {k : Nat} {r : Option (LimitMap D)},
    mergeLoopC imax Os mp = .ok (k, r) → k ≤ Os.length ∧ ∀ mp', r = some mp' → mp'.length ≤ Os.length + mp.length := by
  intro Os
  induction Os with
  | nil => intro mp k r e; cases e; exact ⟨le_rfl, fun mp' h => by cases h; simp⟩
  | cons it rest ih =>
    intro mp k r e
    unfold mergeLoopC at e
    have key : ∀ it : OmegaLimit D,
        (match mapFind mp (it.i, it.j) with
        | some v => do
          let (v', err) ← v.merge it
          if err then .ok (1, none)
          else do
            let (k, r) ← mergeLoopC imax rest (mapSet mp (it.i, it.j) v')
            .ok (k + 1, r)
        | none => do
          let (k, r) ← mergeLoopC imax rest (mapSet mp (it.i, it.j) it)
          .ok (k + 1, r)) = Except.ok (ε := Err) (k, r) →
        k ≤ rest.length + 1 ∧ ∀ mp', r = some mp' → mp'.length ≤ rest.length + 1 + mp.length := by
      intro it e
      have fin : ∀ v, (do
          let (k, r) ← mergeLoopC imax rest (mapSet mp (it.i, it.j) v)
          .ok (k + 1, r)) = Except.ok (ε := Err) (k, r) →
          k ≤ rest.length + 1 ∧ ∀ mp', r = some mp' → mp'.length ≤ rest.length + 1 + mp.length := by
        intro v e
        obtain ⟨⟨k1, r1⟩, e1, e⟩ := bind_ok e
        cases e
        obtain ⟨h1, h2⟩ := ih _ e1
        refine ⟨by omega, fun mp' h => ?_⟩
        have := h2 mp' h
        have := length_mapSet mp (it.i, it.j) v
        omega
      split at e
      · obtain ⟨⟨v', err⟩, -, e⟩ := bind_ok e
        dsimp only at e
        split at e
        · cases e; exact ⟨by omega, fun mp' h => by cases h⟩
        · exact fin _ e
      · exact fin _ e
    rw [List.length_cons]
    split at e
    · obtain ⟨it', -, e⟩ := bind_ok e
      exact key it' e
    · exact key it e

theorem mergeLimitsC_light [Add D] {s : ProblemSolver D} {r : Option (List (OmegaLimit D))} (e : mergeLimitsC imax s = .ok (c, r)) :
    Light c (2 * s.Omegas.length + s.n) 0 := by
  unfold mergeLimitsC at e
  obtain ⟨⟨k, r'⟩, e1, e⟩ := bind_ok e
  obtain ⟨h1, h2⟩ := mergeLoopC_le _ _ e1
  cases r' with
  | none => cases e; exact (Light.mk' _ _).mono (by omega) le_rfl
  | some mp =>
    dsimp only at e
    obtain ⟨mus, -, e⟩ := bind_ok e
    cases e
    have := h2 mp rfl
    simp only [List.length_nil] at this
    exact (Light.mk' _ _).mono (by omega) le_rfl

section
variable [Zero D] [One D] [Add D] [Sub D] [LT D] [DecidableLT D]

theorem calcLoopC_light : ∀ (limits : List (OmegaLimit D)) (a : D × D × Int) {c : Cost} {r : D × D × Int},
    (∀ o ∈ limits, Short L o.l o.u) → calcLoopC imax fuel limits a = .ok (c, r) →
    Light c (limits.length * (1 + L)) (limits.length * (5 + 2 * L)) := by
  intro limits
  induction limits with
  | nil => intro a c r _ e; cases e; simpa using Light.zero
  | cons it rest ih =>
    rintro ⟨vcm, M, U⟩ c r hs e
    unfold calcLoopC at e
    obtain ⟨x, -, e⟩ := bind_ok e
    obtain ⟨y, -, e⟩ := bind_ok e
    obtain ⟨⟨c1, m⟩, e1, e⟩ := bind_ok e
    obtain ⟨w, -, e⟩ := bind_ok e
    obtain ⟨⟨c2, r2⟩, e2, e⟩ := bind_ok e
    cases e
    have l1 := minimumC_light (hs it (by simp)) e1
    have l2 := ih _ (fun o ho => hs o (List.mem_cons_of_mem _ ho)) e2
    refine (((Light.mk' 1 4).add l1).add l2).mono ?_ ?_
    · rw [List.length_cons, Nat.add_mul]; omega
    · rw [List.length_cons, Nat.add_mul]; omega

end
end ProblemSolver
end AHO
