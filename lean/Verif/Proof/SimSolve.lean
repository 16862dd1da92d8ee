import Verif.Proof.Solve
/-!
# The whole solver over an inexact type

If the values of the callbacks lie in the set on which the arithmetic is exact and are small enough, the
run over `Q` is the embedding of the exact run.
-/

namespace AHO
open Spec
set_option linter.unusedSectionVars false

variable {K : Type} [Field K] [LinearOrder K] [IsStrictOrderedRing K]
variable {Q : Type} [Zero Q] [One Q] [Add Q] [Sub Q] [Neg Q] [Mul Q] [Div Q] [IntCast Q] [BEq Q] [LT Q] [LE Q]
  [DecidableLT Q] [DecidableLE Q] {E : FEmb K Q}

/-- lists of limits; `S` is the sum of the bounds of the values -/
inductive LRs (E : FEmb K Q) : List (OmegaLimit K) → List (OmegaLimit Q) → K → Prop
  | nil : LRs E [] [] 0
  | cons {x y b xs ys S} : LR E b x y → x.l ≤ x.u → LRs E xs ys S → LRs E (x :: xs) (y :: ys) (b + S)

theorem LRs.nonneg {xs : List (OmegaLimit K)} {ys : List (OmegaLimit Q)} {S : K} (h : LRs E xs ys S) : 0 ≤ S := by
  induction h with
  | nil => exact le_rfl
  | cons h hle _ ih => exact add_nonneg (h.nonneg hle) ih

theorem LRs.forall₂ {xs : List (OmegaLimit K)} {ys : List (OmegaLimit Q)} {S : K} (h : LRs E xs ys S) :
    List.Forall₂ (LR E S) xs ys := by
  induction h with
  | nil => exact .nil
  | cons h hle h' ih =>
    have h1 := h.nonneg hle
    have h2 := h'.nonneg
    exact .cons (h.mono (by linarith)) (ih.imp fun _ _ hh => hh.mono (by linarith))

theorem LRs.append {xs : List (OmegaLimit K)} {ys : List (OmegaLimit Q)} {S : K} (h : LRs E xs ys S)
    {xs' : List (OmegaLimit K)} {ys' : List (OmegaLimit Q)} {S' : K} (h' : LRs E xs' ys' S') :
    LRs E (xs ++ xs') (ys ++ ys') (S + S') := by
  induction h with
  | nil => rw [zero_add]; exact h'
  | cons h hle _ ih => rw [add_assoc]; exact .cons h hle ih

theorem dmax_simE {a b : K} (ha : E.I a) (hb : E.I b) : dmax (E.e a) (E.e b) = E.e (dmax a b) := by
  unfold dmax
  by_cases h : a < b
  · rw [if_pos ((E.lt a b ha hb).2 h), if_pos h]
  · rw [if_neg (fun hh => h ((E.lt a b ha hb).1 hh)), if_neg h]

theorem dmax_mem {a b : K} {P : K → Prop} (ha : P a) (hb : P b) : P (dmax a b) := by
  unfold dmax; split <;> assumption

namespace ProblemSolver
variable {imax : Int} {fuel : Nat}

/-! ### `calc` -/

theorem calcLoop_simE {xs : List (OmegaLimit K)} {ys : List (OmegaLimit Q)} {S : K} (h : LRs E xs ys S) :
    ∀ {A B a m : K} {w : Int} {r : K × K × Int}, (∀ x ∈ E.U, |x| ≤ A + S → E.I x) → (∀ x ∈ E.U, |x| ≤ B + 2 * S → E.I x) →
    a ∈ E.U → |a| ≤ A → m ∈ E.U → |m| ≤ B → calcLoop imax fuel xs (a, m, w) = .ok r →
    calcLoop imax fuel ys (E.e a, E.e m, w) = .ok (E.e r.1, E.e r.2.1, r.2.2) ∧ r.1 ∈ E.U ∧ r.2.1 ∈ E.U ∧
      |r.1| ≤ A + S ∧ |r.2.1| ≤ B + 2 * S := by
  induction h with
  | nil =>
    intro A B a m w r _ _ h1 h2 h3 h4 hr
    cases hr
    exact ⟨rfl, h1, h3, by simpa using h2, by simpa using h4⟩
  | cons h hle h' ih =>
    rename_i x y b xs ys S
    intro A B a m w r I1 I2 h1 h2 h3 h4 hr
    have hb := h.nonneg hle
    have hS := h'.nonneg
    have hA : 0 ≤ A := (abs_nonneg a).trans h2
    have hB : 0 ≤ B := (abs_nonneg m).trans h4
    unfold calcLoop at hr ⊢
    obtain ⟨v, p, q, vU, vb⟩ := h.fn x.l le_rfl hle
    obtain ⟨v', p', q', vU', vb'⟩ := h.fn x.u hle le_rfl
    rw [p, ok_bind, p', ok_bind] at hr
    rw [h.l, h.u, q, ok_bind, q', ok_bind]
    cases hm : x.minimum imax fuel with
    | error e => rw [hm] at hr; cases hr
    | ok mn =>
      rw [hm, ok_bind] at hr
      obtain ⟨m1, m2, m3⟩ := h.minimum hle hm
      rw [m1, ok_bind, dmax_simE (h.ex _ _ le_rfl hle p) (h.ex _ _ hle le_rfl p')]
      unfold ck at hr ⊢
      split at hr
      · rename_i hc
        rw [ok_bind] at hr
        rw [if_pos hc, ok_bind]
        have dU : dmax v v' ∈ E.U := dmax_mem (P := fun x => x ∈ E.U) vU vU'
        have db : |dmax v v'| ≤ b := dmax_mem (P := fun x => |x| ≤ b) vb vb'
        have sU := E.U.sub_mem dU m2
        have sb : |dmax v v' - mn| ≤ 2 * b := (abs_sub _ _).trans (by linarith)
        have aU := E.U.add_mem h1 dU
        have ab : |a + dmax v v'| ≤ A + b := (abs_add_le _ _).trans (add_le_add h2 db)
        have mU := E.U.add_mem h3 sU
        have mb : |m + (dmax v v' - mn)| ≤ B + 2 * b := (abs_add_le _ _).trans (add_le_add h4 sb)
        rw [← E.sub _ _ dU (I2 _ sU (by linarith)), ← E.plus _ _ h1 (I1 _ aU (by linarith)), ← E.plus _ _ h3 (I2 _ mU (by linarith))]
        obtain ⟨r1, r2, r3, r4, r5⟩ := ih (A := A + b) (B := B + 2 * b) (fun x hx h => I1 x hx (by linarith))
          (fun x hx h => I2 x hx (by linarith)) aU ab mU mb hr
        exact ⟨r1, r2, r3, by linarith, by linarith⟩
      · cases hr

/-! ### From the merged limits on -/

section
variable {n : Nat} {R W U : Int}

/-- the size up to which the arithmetic has to be exact: `S` is the sum of the bounds of the values, `N` the number of limits -/
def range (N n : Nat) (W : Int) (S : K) : K :=
  Flow.needs N (Nat.clog 2 (2 * (n + 1) * W.toNat)) (1 + 2 * S) S W

theorem needs_mono {m m' t t' : Nat} {M M' b b' : K} {R W : Int} (h1 : m ≤ m') (h2 : t ≤ t') (h3 : M ≤ M') (h4 : b ≤ b')
    (h5 : R ≤ W) (hM : 0 ≤ M) (hb : 0 ≤ b) (hR : 0 ≤ R) : Flow.needs m t M b R ≤ Flow.needs m' t' M' b' W := by
  have k1 : (m : K) ≤ m' := by exact_mod_cast h1
  have k2 : (t : K) ≤ t' := by exact_mod_cast h2
  have k5 : (R : K) ≤ W := by exact_mod_cast h5
  have kR : (0 : K) ≤ R := by exact_mod_cast hR
  have km : (0 : K) ≤ m := Nat.cast_nonneg _
  have kt : (0 : K) ≤ t := Nat.cast_nonneg _
  have kM := hM.trans h3
  have e1 : 2 * (m : K) * M * (t + 1) ≤ 2 * m' * M' * (t' + 1) := by gcongr
  have e2 : 2 * (m : K) * (b + M * R) ≤ 2 * m' * (b' + M' * W) := by gcongr
  unfold Flow.needs
  linarith

theorem solveLimits_simE {limits : List (OmegaLimit K)} {limR : List (OmegaLimit Q)} {ps : List (Pair K)} {S : K}
    (hrep : List.Forall₂ OmegaLimit.Is limits ps) (g : ∀ p ∈ ps, ArcIn n R W p) (hR0 : 0 ≤ R) (hRW : R ≤ W)
    (hcap : 6 * ((n : Int) + 1) * (bitCeil ((n + 1) * W.toNat) : Nat) ≤ imax)
    (hfuel : solveFuel n limits.length R W ≤ fuel)
    (hL : LRs E limits limR S) (h1 : (1 : K) ∈ E.U) (hI : ∀ x ∈ E.U, |x| ≤ range limits.length n W S → E.I x) :
    ∃ r, solveLimits imax fuel n limits = .ok r ∧ solveLimits imax fuel n limR = .ok (r.map E.e) := by
  have hS := hL.nonneg
  set b : Int := ((bitCeil ((n + 1) * W.toNat) : Nat) : Int) with hb
  have hb1 : 1 ≤ b := by have := bitCeil_pos ((n + 1) * W.toNat); omega
  have hbW : ((n : Int) + 1) * W ≤ b := bitCeil_ge (by omega)
  have hbig : ((n : Int) + 1) * 1 ≤ ((n : Int) + 1) * b := Int.mul_le_mul_of_nonneg_left hb1 (by omega)
  have hnb : 0 ≤ (n : Int) * b := Int.mul_nonneg (by omega) (by omega)
  have hcap' : 6 * ((n : Int) * b) + 6 * b ≤ imax := by
    have : 6 * ((n : Int) + 1) * b = 6 * ((n : Int) * b) + 6 * b := by ring
    omega
  have hR2 : 2 * R ≤ imax := capacity_range hR0 hRW hcap
  have hN : 2 * ((n : Int) + 1) ≤ imax := by
    have : ((n : Int) + 1) * b = (n : Int) * b + b := by ring
    omega
  have hbits : Flow.bits R < fuel := by unfold solveFuel at hfuel; omega
  obtain ⟨U, c1, c2, c3, c4⟩ := calcLoop_spec (imax := imax) (fuel := fuel) hR2 hbits limits ps 0 1 0 hrep g
  have hM := bigM_pos g
  rw [zero_add] at c1
  have hvcm : (ps.map mxP).sum = vcm ps := rfl
  have hbm : 1 + (ps.map fun p => mxP p - mnP p).sum = bigM ps := rfl
  rw [hvcm, hbm] at c1
  have hRK : (0 : K) ≤ R := by exact_mod_cast hR0
  have hWK : (R : K) ≤ W := by exact_mod_cast hRW
  have n1 : 0 ≤ 2 * (limits.length : K) * (1 + 2 * S) * ((Nat.clog 2 (2 * (n + 1) * W.toNat) : Nat) + 1) := by positivity
  have n2 : 0 ≤ 2 * (limits.length : K) * (S + (1 + 2 * S) * W) := by
    have : (0 : K) ≤ W := hRK.trans hWK
    positivity
  have hrange : 2 + 4 * S ≤ range limits.length n W S := by
    unfold range Flow.needs
    linarith
  obtain ⟨d1, d2, d3, d4, d5⟩ := calcLoop_simE (imax := imax) (fuel := fuel) hL (A := 0) (B := 1)
    (fun x hx h => hI x hx (by linarith)) (fun x hx h => hI x hx (by linarith)) E.U.zero_mem (by simp) h1 (by simp) c1
  dsimp only at d1 d2 d3 d4 d5
  rw [E.zero, E.one] at d1
  have hMb : bigM ps ≤ 1 + 2 * S := (le_abs_self _).trans d5
  have hUW : U ≤ W := by
    rcases c4 with h | ⟨p, hp, h⟩
    · omega
    · have := (g p hp).wd; omega
  have hT : Flow.epsExp n U ≤ Nat.clog 2 (2 * (n + 1) * W.toNat) := by
    unfold Flow.epsExp
    exact Nat.clog_mono_right 2 (Nat.mul_le_mul_left _ (by omega))
  have hI' : ∀ x ∈ E.U, |x| ≤ Flow.needs limits.length (Flow.epsExp n U) (bigM ps) S R → E.I x := fun x hx h =>
    hI x hx (h.trans (needs_mono le_rfl hT hMb le_rfl hRW hM.le hS hR0))
  have key : ∃ s v s' sR tR, Flow.mk' imax fuel n (bigM ps) U limits = .ok s ∧ Flow.minCost imax fuel s = .ok (v, s') ∧
      Flow.mk' imax fuel n (E.e (bigM ps)) U limR = .ok sR ∧ Flow.minCost imax fuel sR = .ok (E.e v, tR) ∧ E.I v := by
    by_cases hU : U = 0
    · subst hU
      have hpt : ∀ p ∈ ps, p.l = p.u := fun p hp => by have := c3 p hp; have := (g p hp).le; omega
      exact Flow.minCost_zero_simE E hrep (arcOK_of g) hpt hM.le hR2 hR0 hN (by omega) hL.forall₂ hS h1 hI'
    · have hU1 : 1 ≤ U := by omega
      have ht := pow_exp_le (n := n) hU1 hUW
      rw [← hb] at ht
      have ht1 : (0 : Int) < 2 ^ (Flow.epsExp n U - 1) := by positivity
      have hge := (exp_le (n := n) hU1 hUW).2
      exact Flow.minCost_simE E (c := 2 * ((n : Int) + 1) * R) hrep (arcOK_of g) hM.le hU1 hR2 hR0 hN
        le_rfl
        (by
          have : (2 : Int) ^ Flow.epsExp n U = 2 ^ (Flow.epsExp n U - 1) * 2 := by
            rw [← pow_succ, Nat.sub_add_cancel hge]
          omega)
        (by
          have hRb : 2 * ((n : Int) + 1) * R ≤ 2 * b := by
            have : ((n : Int) + 1) * R ≤ ((n : Int) + 1) * W := Int.mul_le_mul_of_nonneg_left hRW (by omega)
            have h' : 2 * ((n : Int) + 1) * R = 2 * (((n : Int) + 1) * R) := by ring
            omega
          have h1 : (n : Int) * (2 * ((n : Int) + 1) * R + 2 ^ (Flow.epsExp n U - 1)) ≤ n * (2 * b + b) :=
            Int.mul_le_mul_of_nonneg_left (by omega) (by omega)
          have h2 : (3 * (n : Int) + 1) * (2 ^ (Flow.epsExp n U - 1) - 1) ≤ (3 * (n : Int) + 1) * b :=
            Int.mul_le_mul_of_nonneg_left (by omega) (by omega)
          have h3 : (n : Int) * (2 * b + b) = 3 * (n * b) := by ring
          have h4 : (3 * (n : Int) + 1) * b = 3 * (n * b) + b := by ring
          omega)
        (le_trans (minFuel_le hU1 hUW hR0 hRW _) hfuel) hL.forall₂ hS h1 d3 hI'
  obtain ⟨s, v, s', sR, tR, e1, e2, e3, e4, e5⟩ := key
  have hlt' := E.lt _ _ (hI _ d2 (by linarith)) e5
  unfold solveLimits calc'
  rw [c1, ok_bind, d1, ok_bind]
  dsimp only
  rw [e1, ok_bind, e2, ok_bind, e3, ok_bind, e4, ok_bind]
  dsimp only
  by_cases hlt : vcm ps < v
  · rw [if_pos hlt, if_pos (hlt'.2 hlt)]
    exact ⟨none, rfl, rfl⟩
  · rw [if_neg hlt, if_neg (fun h => hlt (hlt'.1 h))]
    exact ⟨some v, rfl, rfl⟩

end

/-! ### Before `calc` -/

/-- the node limits over `Q`; entry 0 is not used -/
structure MRs (E : FEmb K Q) (G : K) (ms : List (MuLimit K)) (ns : List (MuLimit Q)) : Prop where
  len : ns.length = ms.length
  rel : ∀ (i : Nat) (h : i < ms.length) (h' : i < ns.length), 1 ≤ i →
    LR E G { ms[i] with i := i, j := 0 } { ns[i] with i := i, j := 0 }

section
variable {G : K} {ms : List (MuLimit K)} {ns : List (MuLimit Q)} (hm : MRs E G ms ns)
include hm

theorem checkMus_simE : ∀ (cnt i : Nat), 1 ≤ i → checkMus ns i cnt = checkMus ms i cnt := by
  intro cnt
  induction cnt with
  | zero => intro i _; rfl
  | succ cnt ih =>
    intro i hi
    unfold checkMus
    by_cases h : i < ms.length
    · have h' : i < ns.length := by rw [hm.len]; exact h
      have hr := hm.rel i h h' hi
      have r1 : ns[i].l = ms[i].l := hr.l
      have r2 : ns[i].u = ms[i].u := hr.u
      rw [listRd_ok h, listRd_ok h', ok_bind, ok_bind, r1, r2, ih (i + 1) (by omega)]
    · have e1 : listRd ms i = .error .oob := by
        unfold listRd; rw [List.getElem?_eq_none (by omega)]
      have e2 : listRd ns i = .error .oob := by
        unfold listRd; rw [List.getElem?_eq_none (by rw [hm.len]; omega)]
      rw [e1, e2]; rfl

theorem listRd_simE {i : Nat} (hi : 1 ≤ i) {m : MuLimit K} (h : listRd ms i = .ok m) :
    ∃ m', listRd ns i = .ok m' ∧ LR E G { m with i := i, j := 0 } { m' with i := i, j := 0 } := by
  by_cases hl : i < ms.length
  · have h' : i < ns.length := by rw [hm.len]; exact hl
    rw [listRd_ok hl] at h
    cases h
    exact ⟨_, listRd_ok h', hm.rel i hl h' hi⟩
  · have e1 : listRd ms i = .error .oob := by
      unfold listRd; rw [List.getElem?_eq_none (by omega)]
    rw [e1] at h; cases h

/-- an optional list of limits over `Q` -/
def OptRel {α β : Type} (r : α → β → Prop) : Option α → Option β → Prop
  | none, none => True
  | some a, some b => r a b
  | _, _ => False

theorem processOmegas_simE {n : Nat} : ∀ {Os : List (OmegaLimit K)} {Ps : List (OmegaLimit Q)},
    List.Forall₂ (LR E G) Os Ps → (∀ x ∈ Os, x.u ≤ imax) → ∀ {r}, processOmegas imax fuel n ms Os = .ok r →
    ∃ r', processOmegas imax fuel n ns Ps = .ok r' ∧
      OptRel (List.Forall₂ fun x y => LR E G x y ∧ x.l ≤ x.u ∧ x.u ≤ imax) r r' ∧ ∀ xs, r = some xs → xs.length = Os.length := by
  intro Os Ps h
  induction h with
  | nil =>
    intro _ r hr
    cases hr
    exact ⟨some [], rfl, .nil, by rintro xs ⟨⟩; rfl⟩
  | cons hx hrest ih =>
    rename_i x y Os Ps
    intro hu r hr
    unfold processOmegas at hr ⊢
    rw [hx.i, hx.j, hx.l, hx.u]
    split at hr
    · rename_i c; cases hr; rw [if_pos c]; exact ⟨none, rfl, trivial, by rintro xs ⟨⟩⟩
    · rename_i c1
      rw [if_neg c1]
      split at hr
      · rename_i c; cases hr; rw [if_pos c]; exact ⟨none, rfl, trivial, by rintro xs ⟨⟩⟩
      · rename_i c2
        rw [if_neg c2]
        split at hr
        · rename_i c; cases hr; rw [if_pos c]; exact ⟨none, rfl, trivial, by rintro xs ⟨⟩⟩
        · rename_i c3
          rw [if_neg c3]
          split at hr
          · rename_i c; cases hr; rw [if_pos c]; exact ⟨none, rfl, trivial, by rintro xs ⟨⟩⟩
          · rename_i c4
            rw [if_neg c4]
            rw [not_not] at c1 c2 c4
            cases hp : x.preProcessing imax fuel with
            | error e => rw [hp] at hr; cases hr
            | ok x' =>
              have hx' : x'.i = x.i ∧ x'.j = x.j ∧ x'.u = x.u := by
                unfold OmegaLimit.preProcessing at hp
                cases hpp : partitionPoint imax (descends imax x.fn) fuel x.l x.u with
                | error e => rw [hpp] at hp; cases hp
                | ok p => rw [hpp, ok_bind] at hp; cases hp; exact ⟨rfl, rfl, rfl⟩
              rw [hp, ok_bind] at hr
              obtain ⟨y', p1, p2⟩ := hx.preProcessing c4 hp
              rw [p1, ok_bind]
              have hyi : y'.i = x'.i := (p2 0).i
              have hyj : y'.j = x'.j := (p2 0).j
              have hyu : y'.u = x'.u := (p2 0).u
              rw [hyi, hyj, hyu]
              cases hmi : listRd ms x'.i with
              | error e => rw [hmi] at hr; cases hr
              | ok mi =>
                rw [hmi, ok_bind] at hr
                obtain ⟨mi', i1, i2⟩ := listRd_simE hm (by rw [hx'.1]; omega) hmi
                rw [i1, ok_bind]
                cases hmj : listRd ms x'.j with
                | error e => rw [hmj] at hr; cases hr
                | ok mj =>
                  rw [hmj, ok_bind] at hr
                  obtain ⟨mj', j1, j2⟩ := listRd_simE hm (by rw [hx'.2.1]; omega) hmj
                  rw [j1, ok_bind]
                  have l1 : mi'.l = mi.l := i2.l
                  have l2 : mj'.u = mj.u := j2.u
                  rw [l1, l2]
                  unfold ck at hr ⊢
                  split at hr
                  · rename_i c
                    rw [ok_bind] at hr
                    rw [if_pos c, ok_bind]
                    dsimp only at hr ⊢
                    by_cases hle : mi.l - mj.u ≤ x'.u
                    · rw [if_neg (not_not.2 hle)] at hr ⊢
                      cases hpr : processOmegas imax fuel n ms Os with
                      | error e => rw [hpr] at hr; cases hr
                      | ok r1 =>
                        rw [hpr, ok_bind] at hr
                        cases hr
                        obtain ⟨r2, q1, q2, q3⟩ := ih (fun z hz => hu z (List.mem_cons_of_mem _ hz)) hpr
                        rw [q1, ok_bind]
                        refine ⟨_, rfl, ?_, ?_⟩
                        · cases r1 with
                          | none => cases r2 with
                            | none => trivial
                            | some _ => exact q2.elim
                          | some l1 => cases r2 with
                            | none => exact q2.elim
                            | some l2 =>
                              refine .cons ⟨?_, hle, by dsimp only; rw [hx'.2.2]; exact hu x (by simp)⟩ q2
                              have := p2 (mi.l - mj.u)
                              refine ⟨rfl, rfl, rfl, rfl, this.fn, this.ex⟩
                        · intro xs hxs
                          cases r1 with
                          | none => cases hxs
                          | some l1 => cases hxs; simp [q3 l1 rfl]
                    · rw [if_pos hle] at hr ⊢
                      cases hr
                      exact ⟨none, rfl, trivial, by rintro xs ⟨⟩⟩
                  · cases hr

theorem musEdges_simE : ∀ (cnt i : Nat), 1 ≤ i → ∀ {es}, (∀ (k : Nat) (h : k < ms.length), i ≤ k → k < i + cnt → ms[k].l ≤ ms[k].u) →
    musEdges ms i cnt = .ok es → ∃ fs, musEdges ns i cnt = .ok fs ∧ LRs E es fs (cnt * G) := by
  intro cnt
  induction cnt with
  | zero => intro i _ es _ h; cases h; exact ⟨[], rfl, by simpa using LRs.nil⟩
  | succ cnt ih =>
    intro i hi es hle h
    unfold musEdges at h ⊢
    cases hmi : listRd ms i with
    | error e => rw [hmi] at h; cases h
    | ok m =>
      rw [hmi, ok_bind] at h
      obtain ⟨m', m1, m2⟩ := listRd_simE hm hi hmi
      rw [m1, ok_bind]
      cases hr : musEdges ms (i + 1) cnt with
      | error e => rw [hr] at h; cases h
      | ok r =>
        rw [hr, ok_bind] at h
        cases h
        obtain ⟨fs, f1, f2⟩ := ih (i + 1) (by omega) (fun k hk h1 h2 => hle k hk (by omega) (by omega)) hr
        rw [f1, ok_bind]
        refine ⟨_, rfl, ?_⟩
        have hml : m.l ≤ m.u := by
          by_cases hl : i < ms.length
          · rw [listRd_ok hl] at hmi
            cases hmi
            exact hle i hl le_rfl (by omega)
          · have e1 : listRd ms i = .error .oob := by
              unfold listRd; rw [List.getElem?_eq_none (by omega)]
            rw [e1] at hmi; cases hmi
        have : ((cnt + 1 : Nat) : K) * G = G + cnt * G := by push_cast; ring
        rw [this]
        exact .cons m2 hml f2

end

/-! ### The map -/

/-- maps with the same keys -/
inductive MapRel (E : FEmb K Q) : LimitMap K → LimitMap Q → K → Prop
  | nil : MapRel E [] [] 0
  | cons {k x y b m m' S} : LR E b x y → x.l ≤ x.u → MapRel E m m' S → MapRel E ((k, x) :: m) ((k, y) :: m') (b + S)

theorem MapRel.toLRs {m : LimitMap K} {m' : LimitMap Q} {S : K} (h : MapRel E m m' S) :
    LRs E (m.map Prod.snd) (m'.map Prod.snd) S := by
  induction h with
  | nil => exact .nil
  | cons h hle _ ih => exact .cons h hle ih

theorem MapRel.nonneg {m : LimitMap K} {m' : LimitMap Q} {S : K} (h : MapRel E m m' S) : 0 ≤ S := h.toLRs.nonneg

theorem MapRel.new {m : LimitMap K} {m' : LimitMap Q} {S : K} (h : MapRel E m m' S) {k : Nat × Nat}
    (hf : mapFind m k = none) {x : OmegaLimit K} {y : OmegaLimit Q} {b : K} (hx : LR E b x y) (hle : x.l ≤ x.u) :
    mapFind m' k = none ∧ MapRel E (mapSet m k x) (mapSet m' k y) (S + b) := by
  induction h with
  | nil => exact ⟨rfl, by rw [zero_add, ← add_zero b]; exact .cons hx hle .nil⟩
  | cons h hl h' ih =>
    unfold mapFind at hf ⊢
    unfold mapSet
    split at hf
    · cases hf
    · rename_i hne
      rw [if_neg hne, if_neg hne, if_neg hne]
      obtain ⟨i1, i2⟩ := ih hf
      refine ⟨i1, ?_⟩
      split
      · rw [add_comm]; exact .cons hx hle (.cons h hl h')
      · rw [add_assoc]; exact .cons h hl i2

theorem MapRel.old {m : LimitMap K} {m' : LimitMap Q} {S : K} (h : MapRel E m m' S) (hs : Sorted m) {k : Nat × Nat}
    {x : OmegaLimit K} (hf : mapFind m k = some x) :
    ∃ y b, mapFind m' k = some y ∧ LR E b x y ∧ x.l ≤ x.u ∧ b ≤ S ∧
      ∀ x2 y2 b2, LR E b2 x2 y2 → x2.l ≤ x2.u → MapRel E (mapSet m k x2) (mapSet m' k y2) (S - b + b2) := by
  induction h with
  | nil => simp [mapFind] at hf
  | cons h hl h' ih =>
    rename_i k' x' y' b' m m' S
    have hs' := List.pairwise_cons.1 hs
    have hb' := h.nonneg hl
    have hS := h'.nonneg
    unfold mapFind at hf ⊢
    by_cases hk : k' = k
    · subst hk
      rw [if_pos rfl] at hf ⊢
      cases hf
      refine ⟨y', b', rfl, h, hl, by linarith, fun x2 y2 b2 h2 hl2 => ?_⟩
      unfold mapSet
      rw [if_pos rfl, if_pos rfl, show b' + S - b' + b2 = b2 + S by ring]
      exact .cons h2 hl2 h'
    · rw [if_neg hk] at hf ⊢
      obtain ⟨y, b, i1, i2, i3, i4, i5⟩ := ih hs'.2 hf
      refine ⟨y, b, i1, i2, i3, by linarith, fun x2 y2 b2 h2 hl2 => ?_⟩
      have hlt : ¬ keyLt k k' = true := by
        intro hlt
        obtain ⟨a, b, e1, -⟩ := mapSet_old (v := x) hs'.2 hf
        have := hs'.1 (k, x) (by rw [e1]; simp)
        exact keyLt_irrefl (keyLt_trans hlt this)
      unfold mapSet
      rw [if_neg hk, if_neg hk, if_neg hlt, if_neg hlt, show b' + S - b + b2 = b' + (S - b + b2) by ring]
      exact .cons h hl (i5 x2 y2 b2 h2 hl2)

theorem mergeLoop_cons' {D : Type} [Add D] (e : OmegaLimit D) (Os : List (OmegaLimit D)) (mp : LimitMap D) :
    mergeLoop imax (e :: Os) mp = (if e.i < e.j then e.reverse imax else .ok e) >>= fun it =>
      match mapFind mp (it.i, it.j) with
      | some v => v.merge it >>= fun x =>
        if x.2 then .ok none else mergeLoop imax Os (mapSet mp (it.i, it.j) x.1)
      | none => mergeLoop imax Os (mapSet mp (it.i, it.j) it) := by
  rw [mergeLoop]
  split <;> rfl

theorem mergeLoop_simE {G : K} {Os : List (OmegaLimit K)} {Ps : List (OmegaLimit Q)}
    (h : List.Forall₂ (fun x y => LR E G x y ∧ x.l ≤ x.u ∧ x.u ≤ imax) Os Ps) :
    ∀ {mp : LimitMap K} {mq : LimitMap Q} {S : K}, MapRel E mp mq S → Sorted mp →
    (∀ x ∈ E.U, |x| ≤ S + Os.length * G → E.I x) → ∀ {r}, mergeLoop imax Os mp = .ok r →
    ∃ r', mergeLoop imax Ps mq = .ok r' ∧ OptRel (fun m m' => MapRel E m m' (S + Os.length * G)) r r' := by
  induction h with
  | nil =>
    intro mp mq S hmp _ _ r hr
    cases hr
    exact ⟨some mq, rfl, by simpa [OptRel] using hmp⟩
  | cons hx hrest ih =>
    rename_i x y Os Ps
    intro mp mq S hmp hs hI r hr
    obtain ⟨hL, hle, hu⟩ := hx
    have hG := hL.nonneg hle
    have hS := hmp.nonneg
    have hlen : (((x :: Os).length : Nat) : K) * G = Os.length * G + G := by
      simp only [List.length_cons]; push_cast; ring
    have hl0 : 0 ≤ (Os.length : K) * G := mul_nonneg (Nat.cast_nonneg _) hG
    rw [hlen] at hI ⊢
    rw [mergeLoop_cons'] at hr ⊢
    obtain ⟨it, it', t1, t2, t3, t4⟩ : ∃ it it', (if x.i < x.j then x.reverse imax else .ok x) = .ok it ∧
        (if y.i < y.j then y.reverse imax else .ok y) = .ok it' ∧ LR E G it it' ∧ it.l ≤ it.u := by
      rw [hL.i, hL.j]
      by_cases hij : x.i < x.j
      · rw [if_pos hij] at hr ⊢
        cases hrv : x.reverse imax with
        | error e => rw [hrv] at hr; cases hr
        | ok it =>
          obtain ⟨it', e1, e2⟩ := hL.reverse hu hrv
          refine ⟨it, it', rfl, by rw [if_pos hij]; exact e1, e2, ?_⟩
          unfold OmegaLimit.reverse at hrv
          unfold ck at hrv
          split at hrv
          · rw [ok_bind] at hrv
            split at hrv
            · rw [ok_bind] at hrv
              cases hrv
              dsimp only; omega
            · cases hrv
          · cases hrv
      · rw [if_neg hij, if_neg hij]
        exact ⟨x, y, rfl, rfl, hL, hle⟩
    rw [t1, ok_bind] at hr
    rw [t2, ok_bind, t3.i, t3.j]
    cases hf : mapFind mp (it.i, it.j) with
    | none =>
      rw [hf] at hr
      dsimp only at hr
      obtain ⟨n1, n2⟩ := hmp.new hf t3 t4
      rw [n1]
      dsimp only
      have := ih n2 (hs.mapSet _ _) (fun z hz hb => hI z hz (by linarith)) hr
      rwa [show S + G + Os.length * G = S + (Os.length * G + G) by ring] at this
    | some w =>
      rw [hf] at hr
      dsimp only at hr
      obtain ⟨w', b, o1, o2, o3, o4, o5⟩ := hmp.old hs hf
      rw [o1]
      dsimp only
      have hb := o2.nonneg o3
      cases hmg : w.merge it with
      | error e => rw [hmg] at hr; cases hr
      | ok res =>
        obtain ⟨x2, err⟩ := res
        rw [hmg, ok_bind] at hr
        obtain ⟨y2, g1, g2, g3⟩ := o2.merge t3 (fun z hz hb => hI z hz (by linarith)) hmg
        rw [g1, ok_bind]
        dsimp only at hr g2 g3 ⊢
        cases err with
        | true =>
          simp only [if_true] at hr ⊢
          cases hr
          exact ⟨none, rfl, trivial⟩
        | false =>
          simp only [if_false, Bool.false_eq_true] at hr ⊢
          have n2 := o5 x2 y2 (b + G) g2 (g3 rfl)
          rw [show S - b + (b + G) = S + G by ring] at n2
          have := ih n2 (hs.mapSet _ _) (fun z hz hb => hI z hz (by linarith)) hr
          rwa [show S + G + Os.length * G = S + (Os.length * G + G) by ring] at this

/-- The merged limits over `Q`. -/
theorem front_simE {n : Nat} (hn : n + 1 < 2 ^ 64) {G : K} {ms : List (MuLimit K)} {ns : List (MuLimit Q)} (hm : MRs E G ms ns) 
    {Os : List (OmegaLimit K)} {Ps : List (OmegaLimit Q)} (hO : List.Forall₂ (LR E G) Os Ps) (hu : ∀ x ∈ Os, x.u ≤ imax)
    (hI : ∀ x ∈ E.U, |x| ≤ (Os.length : Nat) * G → E.I x) {r} (hr : front imax fuel n ms Os = .ok r) :
    ∃ r', front imax fuel n ns Ps = .ok r' ∧ OptRel (fun l l' => LRs E l l' (((Os.length + n : Nat) : K) * G)) r r' := by
  unfold front mk' at hr ⊢
  rw [hm.len, checkMus_simE hm n 1 le_rfl]
  split at hr
  · rename_i c
    rw [if_pos c]
    rw [ok_bind] at hr ⊢
    rw [if_pos (show (invalid : ProblemSolver K).n = sizeMax from rfl)] at hr
    rw [if_pos (show (invalid : ProblemSolver Q).n = sizeMax from rfl)]
    cases hr
    exact ⟨none, rfl, trivial⟩
  · rename_i c
    rw [not_not] at c
    rw [if_neg (not_not.2 c)]
    cases hc : checkMus ms 1 n with
    | error e => rw [hc] at hr; cases hr
    | ok b =>
      rw [hc, ok_bind] at hr
      rw [ok_bind]
      cases b with
      | false =>
        simp only [Bool.false_eq_true, not_false_eq_true, if_true] at hr ⊢
        rw [ok_bind] at hr ⊢
        rw [if_pos (show (invalid : ProblemSolver K).n = sizeMax from rfl)] at hr
        rw [if_pos (show (invalid : ProblemSolver Q).n = sizeMax from rfl)]
        cases hr
        exact ⟨none, rfl, trivial⟩
      | true =>
        simp only [not_true_eq_false, if_false] at hr ⊢
        cases hp : processOmegas imax fuel n ms Os with
        | error e => rw [hp] at hr; cases hr
        | ok r1 =>
          rw [hp, ok_bind] at hr
          obtain ⟨r2, p1, p2, p3⟩ := processOmegas_simE hm hO hu hp
          rw [p1, ok_bind]
          cases r1 with
          | none =>
            cases r2 with
            | some _ => exact p2.elim
            | none =>
              dsimp only at hr ⊢
              rw [ok_bind] at hr ⊢
              rw [if_pos (show (invalid : ProblemSolver K).n = sizeMax from rfl)] at hr
              rw [if_pos (show (invalid : ProblemSolver Q).n = sizeMax from rfl)]
              cases hr
              exact ⟨none, rfl, trivial⟩
          | some l1 =>
            cases r2 with
            | none => exact p2.elim
            | some l2 =>
              dsimp only at hr ⊢
              rw [ok_bind] at hr ⊢
              dsimp only at hr ⊢
              split at hr
              · rename_i c; rw [if_pos c]; cases hr; exact ⟨none, rfl, trivial⟩
              · rename_i c'
                rw [if_neg c']
                unfold mergeLimits at hr ⊢
                dsimp only at hr ⊢
                have hlen := p3 l1 rfl
                cases hml : mergeLoop imax l1 [] with
                | error e => rw [hml] at hr; cases hr
                | ok r3 =>
                  rw [hml, ok_bind] at hr
                  obtain ⟨r4, q1, q2⟩ := mergeLoop_simE (E := E) (G := G) p2 .nil List.Pairwise.nil
                    (fun x hx h => hI x hx (by rw [hlen, zero_add] at h; exact h)) hml
                  rw [q1, ok_bind]
                  cases r3 with
                  | none =>
                    cases r4 with
                    | some _ => exact q2.elim
                    | none => cases hr; exact ⟨none, rfl, trivial⟩
                  | some mp =>
                    cases r4 with
                    | none => exact q2.elim
                    | some mq =>
                      dsimp only at hr ⊢
                      cases hme : musEdges ms 1 n with
                      | error e => rw [hme] at hr; cases hr
                      | ok es =>
                        rw [hme, ok_bind] at hr
                        cases hr
                        have hnodes := (checkMus_spec (Mus := ms) n 1 (by
                          rw [c]; rw [Nat.mod_eq_of_lt hn]; omega))
                        obtain ⟨fs, f1, f2⟩ := musEdges_simE hm n 1 le_rfl (by
                          obtain ⟨b, b1, b2⟩ := hnodes
                          rw [hc] at b1
                          cases b1
                          exact b2.1 rfl) hme
                        rw [f1, ok_bind]
                        refine ⟨_, rfl, ?_⟩
                        have := (MapRel.toLRs q2).append f2
                        rw [hlen, zero_add] at this
                        rw [show ((Os.length + n : Nat) : K) * G = Os.length * G + n * G by push_cast; ring]
                        exact this

/-! ### The whole program -/

theorem range_mono {N N' n : Nat} {W : Int} {S : K} (h : N ≤ N') (hS : 0 ≤ S) (hW : 0 ≤ W) : range N n W S ≤ range N' n W S :=
  needs_mono h le_rfl le_rfl le_rfl le_rfl (by positivity) hS hW

/-- arguments over `K` for a problem -/
theorem exists_represents (P : Problem K) : ∃ Mus Omegas, Represents P Mus Omegas := by
  refine ⟨(List.range (P.n + 1)).map fun i => ⟨P.lo i, P.hi i, fun x => .ok (P.F i x)⟩,
    P.pairs.map fun p => ⟨⟨p.l, p.u, fun x => .ok (p.B x)⟩, p.i, p.j⟩, by simp, ?_, ?_⟩
  · intro i h h1
    simp only [List.getElem_map, List.getElem_range]
    exact ⟨rfl, rfl, fun _ _ _ => rfl⟩
  · generalize P.pairs = ps
    induction ps with
    | nil => exact .nil
    | cons p ps ih => exact .cons ⟨rfl, rfl, rfl, rfl, fun _ _ _ => rfl⟩ ih

theorem limits_simE (E : FEmb K Q) {G : K} : ∀ {Os : List (OmegaLimit K)} {Ps : List (OmegaLimit Q)} {ps : List (Pair K)},
    List.Forall₂ OmegaLimit.Is Os ps →
    List.Forall₂ OmegaLimit.Is Ps (ps.map fun p => ⟨p.i, p.j, p.l, p.u, fun x => E.e (p.B x)⟩) →
    (∀ p ∈ ps, ∀ x, p.l ≤ x → x ≤ p.u → p.B x ∈ E.U ∧ |p.B x| ≤ G) →
    (ps ≠ [] → ∀ v ∈ E.U, |v| ≤ G → E.I v) → List.Forall₂ (LR E G) Os Ps := by
  intro Os Ps ps h
  induction h generalizing Ps with
  | nil => intro h' _ _; cases h'; exact .nil
  | cons hx hr ih =>
    rename_i x p Os ps
    intro h' hv hI
    rw [List.map_cons] at h'
    obtain _ | ⟨hy, hr'⟩ := h'
    refine .cons (LR.of ?_ ?_ ?_ ?_ (hI (by simp)) fun w h1 h2 => ?_)
      (ih hr' (fun p hp => hv p (List.mem_cons_of_mem _ hp)) fun _ => hI (by simp))
    · rw [hy.l, hx.l]
    · rw [hy.u, hx.u]
    · rw [hy.i, hx.i]
    · rw [hy.j, hx.j]
    · rw [hx.l] at h1
      rw [hx.u] at h2
      have := hv p (by simp) w h1 h2
      exact ⟨p.B w, hx.fn w h1 h2, hy.fn w h1 h2, this.1, this.2⟩

/-- The run over `Q` returns the optimum. -/
theorem run_simE (E : FEmb K Q) {R W : Int} {P : Problem K} {Mus : List (MuLimit Q)} {Omegas : List (OmegaLimit Q)} {fuel : Nat} {G : K}
    (rep : Represents (P.mapCosts E.e) Mus Omegas) (wf : WellFormed P) (cv : ConvexCosts P) (wi : Within P R) (wd : Widths P W)
    (ri : Representable imax P)
    (hn : P.n + 1 < 2 ^ 64) (hR0 : 0 ≤ R) (hRW : R ≤ W)
    (hcap : 6 * ((P.n : Int) + 1) * (bitCeil ((P.n + 1) * W.toNat) : Nat) ≤ imax)
    (hfuel : solveFuel P.n (P.pairs.length + P.n) imax W ≤ fuel)
    (hG : 0 ≤ G) (hv : P.AllCosts fun v => v ∈ E.U ∧ |v| ≤ G) (h1 : (1 : K) ∈ E.U)
    (hI : ∀ x ∈ E.U, |x| ≤ range (P.pairs.length + P.n) P.n W (((P.pairs.length + P.n : Nat) : K) * G) → E.I x) :
    ∃ r, Outcome (problemCosts P) r ∧ run imax fuel P.n Mus Omegas = .ok (r.map E.e) := by
  obtain ⟨ms, os, repK⟩ := exists_represents P
  have hbits : Flow.bits imax < fuel := by unfold solveFuel at hfuel; omega
  have hR2 := capacity_range hR0 hRW hcap
  have hS : 0 ≤ (((P.pairs.length + P.n : Nat) : K) * G) := mul_nonneg (Nat.cast_nonneg _) hG
  obtain ⟨r, e1, e2⟩ := run_spec repK wf cv wi wd ri hn hR0 hRW hcap hfuel
  refine ⟨r, e2, ?_⟩
  rw [run_front hn] at e1 ⊢
  have hrange0 : (((P.pairs.length + P.n : Nat) : K) * G) ≤ range (P.pairs.length + P.n) P.n W (((P.pairs.length + P.n : Nat) : K) * G) := by
    have hWK : (0 : K) ≤ W := by exact_mod_cast hR0.trans hRW
    unfold range Flow.needs
    generalize (((P.pairs.length + P.n : Nat) : K) * G) = S at *
    have n1 : 0 ≤ 2 * ((P.pairs.length + P.n : Nat) : K) * (1 + 2 * S) * ((Nat.clog 2 (2 * (P.n + 1) * W.toNat) : Nat) + 1) := by
      positivity
    have n2 : 0 ≤ 2 * ((P.pairs.length + P.n : Nat) : K) * (S + (1 + 2 * S) * W) := by positivity
    linarith
  have hIG : 1 ≤ P.pairs.length + P.n → ∀ v ∈ E.U, |v| ≤ G → E.I v := by
    intro h v hv hb
    have : (1 : K) ≤ ((P.pairs.length + P.n : Nat) : K) := by exact_mod_cast h
    exact hI v hv (hb.trans ((le_mul_of_one_le_left hG this).trans hrange0))
  have hm : MRs E G ms Mus := by
    have l1 : Mus.length = P.n + 1 := rep.len
    refine ⟨by rw [l1, repK.len], fun i h h' hi => ?_⟩
    have a := repK.mus i h hi
    have b := rep.mus i h' hi
    have hin : i ≤ P.n := by have := repK.len; omega
    refine LR.of ?_ ?_ rfl rfl (hIG (by omega)) fun w h1 h2 => ?_
    · dsimp only; rw [a.l, b.l]; rfl
    · dsimp only; rw [a.u, b.u]; rfl
    · dsimp only at h1 h2
      rw [a.l] at h1
      rw [a.u] at h2
      have := hv.nodes i hi hin w h1 h2
      exact ⟨P.F i w, a.fn w h1 h2, b.fn w h1 h2, this.1, this.2⟩
  have hO : List.Forall₂ (LR E G) os Omegas := limits_simE E repK.omegas rep.omegas hv.pairs
    fun h => hIG (by have := List.length_pos_of_ne_nil h; omega)
  have hlen : os.length = P.pairs.length := repK.omegas.length_eq
  have hu : ∀ x ∈ os, x.u ≤ imax := by
    intro x hx
    obtain ⟨k, hk, rfl⟩ := List.getElem_of_mem hx
    have h := (List.forall₂_iff_get.1 repK.omegas).2 k hk (by omega)
    have h' := wi.u P.pairs[k] (List.getElem_mem _)
    have hh : os[k].u = P.pairs[k].u := h.u
    omega
  have hrange : (((P.pairs.length : Nat) : K) * G) ≤ range (P.pairs.length + P.n) P.n W (((P.pairs.length + P.n : Nat) : K) * G) := by
    have h2 : (((P.pairs.length : Nat) : K) * G) ≤ (((P.pairs.length + P.n : Nat) : K) * G) :=
      mul_le_mul_of_nonneg_right (by exact_mod_cast Nat.le_add_right _ _) hG
    exact h2.trans hrange0
  rcases front_spec repK wf cv wi wd ri hn hR0 hR2 hbits with ⟨f1, -⟩ | ⟨limits, ps, f1, f2, f3, f4, f5, f6, -⟩
  · rw [f1, ok_bind] at e1
    cases e1
    obtain ⟨r', g1, g2⟩ := front_simE (E := E) hn hm hO hu (fun x hx h => hI x hx (by rw [hlen] at h; exact h.trans hrange)) f1
    cases r' with
    | some _ => exact g2.elim
    | none => rw [g1]; rfl
  · rw [f1, ok_bind] at e1
    obtain ⟨r', g1, g2⟩ := front_simE (E := E) hn hm hO hu (fun x hx h => hI x hx (by rw [hlen] at h; exact h.trans hrange)) f1
    cases r' with
    | none => exact g2.elim
    | some limR =>
      rw [hlen] at g2
      obtain ⟨r2, k1, k2⟩ := solveLimits_simE (imax := imax) (fuel := fuel) f2 f3 hR0 hRW hcap
        (le_trans (le_trans (solveFuel_mono f4) (solveFuel_mono' (by omega))) hfuel) g2 h1
        (fun x hx h => hI x hx (h.trans (range_mono f4 hS (by omega))))
      dsimp only at e1
      rw [k1] at e1
      cases e1
      rw [g1, ok_bind]
      exact k2

end ProblemSolver
end AHO
