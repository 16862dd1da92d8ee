import Verif.Props.Dual
/-!
# The resets which `Flow::initialization` leaves out
-/

namespace AHO.Props
open Spec Flow
set_option linter.unusedSectionVars false

section
variable {K : Type} [Field K] [LinearOrder K] [IsStrictOrderedRing K]
variable {imax : Int} {n : Nat} {M : K} {U R : Int} {limits : List (OmegaLimit K)} {arcs : List (Pair K)}

/-- `Flow::initialization` together with the resets which are there as comments (`src/Flow.cpp:48-56`): the nodes of the link-cut tree as newly made, all
imbalances `0`, the queue cleared, no parents. -/
def initializationAll (s : Flow K) : Flow K :=
  { s with
    nodes := Vec.replicate s.nodes.size LCT.initNode
    imbalances := Vec.replicate s.imbalances.size 0
    currentEdge := Vec.replicate s.currentEdge.size 0
    uq := s.uq.clear
    fa := Vec.replicate s.fa.size none }

/-- One phase with all the resets (`src/Flow.cpp:31-35`). -/
def phaseAll (imax : Int) (fuel : Nat) (s : Flow K) : Res (Flow K) := do
  let s := initializationAll s
  let s ← pushAllAdmissibleEdge imax s
  let s ← refine imax fuel s
  .ok { s with epsilon := s.epsilon.tdiv 2 }

/-- `Flow(n, M, U, limits).min_cost()` with all the resets in every phase (`src/Flow.cpp:30-46`). -/
def flowMinCostAll (imax : Int) (n : Nat) (M : K) (U : Int) (limits : List (OmegaLimit K)) (fuel : Nat) : Res K := do
  let s ← Flow.mk' imax fuel n M U limits
  let s ← whileLoop (fun s : Flow K => .ok (decide (s.epsilon ≥ 2))) (phaseAll imax fuel) fuel s
  let (answer, _) ← forRange (addEdgeMin imax fuel) 0 s.edges.size (0, s)
  .ok (answer / ((2 : Int) : K))

theorem phaseAll_eq (fuel : Nat) (s : Flow K) : phaseAll imax fuel s = Flow.phase imax fuel (initializationAll s) := rfl

theorem flowMinCostAll_le {f f' : Nat} (hf : f ≤ f') : Le (flowMinCostAll imax n M U limits f) (flowMinCostAll imax n M U limits f') := by
  unfold flowMinCostAll
  refine (Flow.mk'_le hf n M U limits).bind fun s => (Le.whileLoop (fun _ => .refl _) (fun s => ?_) hf _).bind fun s =>
    (Le.forRange (fun s i => ?_) _ _ _).bind fun _ => .refl _
  · rw [phaseAll_eq, phaseAll_eq]
    exact Flow.phase_le hf _
  · unfold addEdgeMin
    walk
    exact minimum_le hf _

theorem pinv_initAll {net : Net K} (hM : 0 ≤ net.M) (C : K) (c : Int) (s : Flow K) (hC : C ≤ 0) (P : PInv (FEmb.id K) C net c s) :
    PInv (FEmb.id K) C net c (initializationAll s) := by
  refine ⟨{ P.st with }, ⟨fun _ => 0, ?_, fun v hv => ⟨trivial, hC, by positivity⟩⟩, fun v hv => rfl, P.anti, P.bd, P.circ, fun v hv => rfl, P.opt,
    UQ.ok_clear _, rfl, P.flU⟩
  exact LCT.repE_init (E := (FEmb.id K).toEmb) trivial s.nodes.size

/-- in a forest without links every node of the link-cut tree stands alone -/
theorem alone {E : Emb K K} {h : Heap K} {par : Nat → Option Nat} {w : Nat → K} (r : LCT.RepE E h par w) (hr : ∀ v, v < h.size → par v = none) {v : Nat}
    (hv : v < h.size) : (h.get v).fa = none ∧ (h.get v).ch0 = none ∧ (h.get v).ch1 = none := by
  obtain ⟨tr, I⟩ := r
  have L := I.loc v hv
  have hio : (tr v).io = [v] := by
    rcases e : (tr v).io with _ | ⟨a, _ | ⟨b, l⟩⟩
    · have := L.mem
      rw [e] at this
      cases this
    · have := L.mem
      rw [e] at this
      rw [List.mem_singleton.1 this]
    · have h1 := L.chain
      rw [e] at h1
      have h2 : par b = some a := (List.isChain_cons_cons.1 h1).1
      have h3 : b < h.size := L.shape.lt (by rw [e]; simp)
      rw [hr b h3] at h2
      cases h2
  have hs := L.shape
  rw [hio] at hs
  have ht : tr v = .node .nil v .nil := by
    cases ht : tr v with
    | nil => rw [ht] at hio; cases hio
    | node l x r =>
      rw [ht] at hio
      have h1 : l.io ++ x :: r.io = [v] := hio
      have h2 : l.io = [] := by
        rcases e : l.io with _ | ⟨a, l'⟩
        · rfl
        · rw [e] at h1
          have := congrArg List.length h1
          simp at this
      rw [h2, List.nil_append, List.cons.injEq] at h1
      cases l with
      | nil =>
        cases r with
        | nil => rw [h1.1]
        | node _ _ _ => simp at h1
      | node _ _ _ => simp at h2
  rw [ht] at hs
  obtain ⟨-, s1, s2, s3, -⟩ := hs
  refine ⟨?_, s2, s3⟩
  rw [s1]
  simpa using hr v hv

/-- C87. The resets which are comments in `initialization` are not needed. Before every phase all imbalances are `0`, the queue is empty and its flags are off, no node has
a parent, and every node of the link-cut tree stands alone: it has neither a parent nor children there. `min_cost` returns the same with the resets (which also make
the values in the link-cut tree zero). -/
theorem C87_resets (I : NetInput imax n M U R limits arcs) :
    (∃ N, ∀ fuel, N ≤ fuel → ∃ s, Flow.mk' imax fuel n M U limits = .ok s ∧ ∀ k, k ≤ phaseCount n U →
      ∃ s', iterN (Flow.phase imax fuel) k s = .ok s' ∧ s'.uq.queue = [] ∧
        ∀ v, v ≤ n → s'.imbalances.rd v = .ok 0 ∧ s'.fa.rd v = .ok none ∧ s'.uq.isIn.rd v = .ok false ∧
          ∃ nd, s'.nodes.rd v = .ok nd ∧ nd.fa = none ∧ nd.ch0 = none ∧ nd.ch1 = none) ∧
    ∃ v, Returns (flowMinCost imax n M U limits) v ∧ Returns (flowMinCostAll imax n M U limits) v := by
  constructor
  · refine ⟨minFuel n limits.length U R (2 * ((n : Int) + 1) * R), fun fuel hf => ?_⟩
    obtain ⟨s, B, e1, e2, e3, e4, e5⟩ := NetInput.phases I hf
    refine ⟨s, e1, fun k hk => ?_⟩
    obtain ⟨s', a1, ⟨C, hC, P⟩, a3, a4⟩ := e5 k hk
    have hn : (inputNet n M limits arcs).n = n := rfl
    refine ⟨s', a1, P.qe, fun v hv => ⟨?_, ?_, ?_, s'.nodes.get v, ?_, ?_⟩⟩
    · rw [Vec.rd_ok (by rw [P.st.isz, hn]; omega), P.bal v hv]
    · rw [Vec.rd_ok (by rw [P.st.fsz, hn]; omega), P.root v hv]
    · have hv' : v < s'.uq.isIn.size := by rw [P.st.qsz, hn]; omega
      rw [Vec.rd_ok hv']
      have := P.uok.flag v hv'
      rw [P.qe] at this
      congr 1
      simpa using this
    · rw [Vec.rd_ok (by rw [P.st.nsz, hn]; omega)]
    · obtain ⟨w, r, -⟩ := P.rep
      exact alone r (fun u hu => P.root u (by rw [P.st.nsz] at hu; omega)) (by rw [P.st.nsz, hn]; omega)
  · obtain ⟨v, h1, h2⟩ := C21_min_cost I
    refine ⟨v, h1, returns_of (minFuel n limits.length U R (2 * ((n : Int) + 1) * R)) (fun fuel hf => ?_) fun f f' hff => flowMinCostAll_le hff⟩
    have hf0 : epsExp n U < fuel ∧ bits R < fuel := by
      have h := hf
      unfold minFuel at h; constructor <;> omega
    obtain ⟨s, B, e1, e2, e3, e4, e5⟩ := NetInput.phasesG I hf (g := initializationAll) (pinv_initAll I.M_nonneg) (fun _ => rfl) (fun _ => rfl) fun _ => rfl
    have hw : whileLoop (fun s : Flow K => .ok (decide (s.epsilon ≥ 2))) (phaseAll imax fuel) fuel s = iterN (phaseAll imax fuel) (epsExp n U) s := by
      refine whileLoop_iterN (fun j hj => ?_) hf0.1
      obtain ⟨s', a1, ⟨C, hC, P⟩, a3, a4⟩ := e5 j hj
      refine ⟨s', a1, ?_⟩
      rw [a3]
      congr 1
      rw [decide_eq_decide]
      constructor
      · intro h
        by_contra hc
        have : epsExp n U - j = 0 := by omega
        rw [this] at h
        simp at h
      · intro h
        have : epsExp n U - j = (epsExp n U - j - 1) + 1 := by omega
        rw [this, pow_succ]
        have : (0 : Int) < 2 ^ (epsExp n U - j - 1) := by positivity
        omega
    obtain ⟨s', a1, ⟨C, hC, P⟩, a3, a4⟩ := e5 (epsExp n U) le_rfl
    have hpos := epsExp_pos (n := n) I.U_pos
    have hs : slack (2 * ((n : Int) + 1) * R) (epsExp n U - 1) (epsExp n U) = 1 := by
      unfold slack
      rw [if_neg (by omega), Nat.sub_add_cancel hpos, Nat.sub_self, pow_zero]
    rw [hs] at P
    rw [Nat.sub_self, pow_zero] at a3
    have hp : Flow.phases imax fuel s' = .ok s' := by
      obtain ⟨fuel, rfl⟩ : ∃ m, fuel = m + 1 := ⟨fuel - 1, by omega⟩
      unfold Flow.phases whileLoop
      rw [ok_bind, a3]
      rfl
    have hL := limOK_of I.rep I.arcs
    have hR := I.cap.range
    have hR0 := I.R_nonneg
    have hL' : ∀ k, k < limits.length → LimOK n M R (limits.getD k default) (arcs.getD k default).B := by
      intro k hk
      have := hL k hk
      have e : limits.getD k default = limits[k] := by
        simp [List.getD_eq_getElem?_getD, List.getElem?_eq_getElem hk]
      rw [e]; exact this
    obtain ⟨v', s'', m1, m2, m3⟩ := P.minCost (inputNet_ok I) (m := limits.length) rfl hp hf0.2 (fun e he =>
      netOf_fits hL' (by omega) (fun k hk => by have := (hL' k hk).lo; have := (hL' k hk).hi; omega)
        (fun k hk => bits_spec (by have := (hL' k hk).lo; have := (hL' k hk).hi; omega)) he)
    have hv : v' = v := by
      refine IsLeast.unique ⟨?_, ?_⟩ h2
      · obtain ⟨π, hπ⟩ := m2
        exact ⟨π, by rw [← total_eq I.rep]; exact hπ.symm⟩
      · rintro _ ⟨π, rfl⟩
        rw [← total_eq I.rep]
        exact m3 π
    have hi : iterN (phaseAll imax fuel) (epsExp n U) s = .ok s' := a1
    unfold flowMinCostAll
    rw [e1, ok_bind, hw, hi, ok_bind]
    unfold Flow.minCost at m1
    rw [hp, ok_bind] at m1
    cases hfr : forRange (addEdgeMin imax fuel) 0 s'.edges.size (0, s') with
    | error e => rw [hfr] at m1; cases m1
    | ok as =>
      rw [hfr, ok_bind] at m1
      cases m1
      rw [ok_bind, ← hv]

end

/-- The hypothesis is met by the example network. -/
example : NetInput (2 ^ 31 - 1) 2 (10 : ℚ) 2 2 exLimits exArcs := exArcs_input

/-- The resets are not without effect on the state: after the first phase of the example nodes `1` and `2` of the link-cut tree
have the values `4` and `-9`, and node `2` has a pending increment `-2` for its children, of which it has none. -/
example : (do
      let s ← Flow.mk' (2 ^ 31 - 1) 20 2 (10 : ℚ) 2 exLimits
      let s ← Flow.phase (2 ^ 31 - 1) 40 s
      .ok ((List.range 3).map fun v => ((s.nodes.get v).val, (s.nodes.get v).add)) : Res _) = .ok [(0, 0), (4, 0), (-9, -2)] := by
  decide +kernel

end AHO.Props
