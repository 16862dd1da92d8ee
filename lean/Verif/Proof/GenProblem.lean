import Verif.Proof.Generator
import Verif.Proof.Double
import Verif.Link
/-!
# The problems that the generator makes
-/

namespace AHO
open Spec Format

namespace Gen

instance : Inhabited Desc := ⟨⟨0, 0, 0, 0, 0⟩⟩

section
variable {K : Type} [Field K] [LinearOrder K] [IsStrictOrderedRing K]

theorem quad_eq (a b c x : Int) : (quad a b c x : K) = ((a : K) * x ^ 2 + b * x + c) / 4 := by
  unfold quad
  push_cast
  ring

/-- the problem with these nodes and pairs -/
def problem (K : Type) [Field K] (ends : List (Int × Int)) (nd pd : List Desc) : Problem K where
  n := nd.length
  lo i := (nd.getD (i - 1) default).l
  hi i := (nd.getD (i - 1) default).u
  F i x := quad (nd.getD (i - 1) default).a (nd.getD (i - 1) default).b (nd.getD (i - 1) default).c x
  pairs := List.zipWith (fun (p : Int × Int) d => ⟨(p.1 + 1).toNat, (p.2 + 1).toNat, d.l, d.u, fun x => quad d.a d.b d.c x⟩) ends pd

variable {n mlimit : Int} {multi : Bool} {nl el fl : Int × Int} {ends : List (Int × Int)} {nd pd : List Desc}

theorem randomCost {lim : Int × Int} {d : Desc} (h : d.OK lim fl) : RandomCost fl (fun x => (quad d.a d.b d.c x : K)) :=
  ⟨d.a, d.b, d.c, ⟨h.a0, h.a1⟩, ⟨h.b0, h.b1⟩, ⟨h.c0, h.c1⟩, fun _ => quad_eq _ _ _ _⟩

theorem zip_mem {α β γ : Type} {f : α → β → γ} : ∀ {l : List α} {r : List β} {c : γ}, c ∈ List.zipWith f l r →
    ∃ a ∈ l, ∃ b ∈ r, c = f a b := by
  intro l
  induction l with
  | nil => intro r c h; simp at h
  | cons a l ih =>
    intro r c h
    cases r with
    | nil => simp at h
    | cons b r =>
      rw [List.zipWith_cons_cons] at h
      rcases List.mem_cons.1 h with rfl | h
      · exact ⟨a, List.mem_cons_self, b, List.mem_cons_self, rfl⟩
      · obtain ⟨a', ha, b', hb, e⟩ := ih h
        exact ⟨a', List.mem_cons_of_mem _ ha, b', List.mem_cons_of_mem _ hb, e⟩

theorem zip_pairwise {α β γ : Type} {f : α → β → γ} {R : α → α → Prop} {S : γ → γ → Prop} {Q : α → Prop} (hf : ∀ a b a' b', Q a → Q a' → R a a' → S (f a b) (f a' b')) :
    ∀ {l : List α} {r : List β}, (∀ a ∈ l, Q a) → l.Pairwise R → (List.zipWith f l r).Pairwise S := by
  intro l
  induction l with
  | nil => intro r _ _; simp
  | cons a l ih =>
    intro r hq h
    cases r with
    | nil => simp
    | cons b r =>
      rw [List.zipWith_cons_cons]
      obtain ⟨h1, h2⟩ := List.pairwise_cons.1 h
      refine List.pairwise_cons.2 ⟨fun c hc => ?_, ih (fun x hx => hq x (List.mem_cons_of_mem _ hx)) h2⟩
      obtain ⟨a', ha, b', hb, rfl⟩ := zip_mem hc
      exact hf _ _ _ _ (hq a List.mem_cons_self) (hq a' (List.mem_cons_of_mem _ ha)) (h1 a' ha)

section
variable {D : Type} [IntCast D] [Add D] [Mul D] [Div D] {g : Graph D}

theorem Out.problem (h : Out D n mlimit multi nl el fl g ends nd pd) : RandomProblem n mlimit multi nl el fl (problem K ends nd pd) := by
  have hlen : (Gen.problem K ends nd pd).pairs.length = ends.length := by
    unfold Gen.problem; rw [List.length_zipWith, h.pd_len, min_self]
  have hnode : ∀ i, 1 ≤ i → i ≤ nd.length → (nd.getD (i - 1) default).OK nl fl := by
    intro i h1 h2
    rw [List.getD_eq_getElem _ _ (by omega)]
    exact h.nd_ok _ (List.getElem_mem _)
  have hpair : ∀ p ∈ (Gen.problem K ends nd pd).pairs, ∃ q ∈ ends, ∃ d ∈ pd, p = ⟨(q.1 + 1).toNat, (q.2 + 1).toNat, d.l, d.u, fun x => quad d.a d.b d.c x⟩ :=
    fun p hp => zip_mem hp
  have hnn : ((Gen.problem K ends nd pd).n : Int) = n := h.nd_len
  refine ⟨hnn, by rw [hlen]; exact h.m_ge, by rw [hlen]; exact h.m_le, fun i h1 h2 => (hnode i h1 h2).lo, fun i h1 h2 => (hnode i h1 h2).le,
    fun i h1 h2 => (hnode i h1 h2).hi, fun i h1 h2 => randomCost (hnode i h1 h2), ?_, ?_, ?_, ?_, ?_, ?_, ?_, ?_, ?_, ?_⟩
  all_goals try
    intro p hp
    obtain ⟨q, hq, d, hd, rfl⟩ := hpair p hp
    obtain ⟨q1, q2, q3, q4, q5⟩ := h.ends_ok q hq
    have hdok := h.pd_ok d hd
    dsimp only
    first
      | omega
      | exact hdok.lo
      | exact hdok.le
      | exact hdok.hi
      | exact randomCost hdok
  intro hm
  refine zip_pairwise (Q := EndsOK n) (R := Differ) ?_ h.ends_ok (h.differ hm)
  rintro ⟨a1, a2⟩ d ⟨b1, b2⟩ d' ⟨q1, q2, q3, q4, q5⟩ ⟨r1, r2, r3, r4, r5⟩ ⟨hne, hne'⟩
  simp only [Ne, Prod.mk.injEq, Prod.swap_prod_mk] at hne hne' q1 q2 q3 q4 r1 r2 r3 r4 ⊢
  constructor
  · rintro ⟨e1, e2⟩; exact hne ⟨by omega, by omega⟩
  · rintro ⟨e1, e2⟩; exact hne' ⟨by omega, by omega⟩

/-- the arguments that the generator makes, over any type whose operations give the right values on the ranges -/
theorem Out.represents {e : K → D} (h : Out D n mlimit multi nl el fl g ends nd pd)
    (he1 : ∀ (d : Desc) (x : Int), d.OK nl fl → d.l ≤ x → x ≤ d.u → (quad d.a d.b d.c x : D) = e (quad d.a d.b d.c x))
    (he2 : ∀ (d : Desc) (x : Int), d.OK el fl → d.l ≤ x → x ≤ d.u → (quad d.a d.b d.c x : D) = e (quad d.a d.b d.c x)) :
    Represents ((Gen.problem K ends nd pd).mapCosts e) g.node g.edge := by
  refine ⟨?_, ?_, ?_⟩
  · rw [h.gnode]; simp [Problem.mapCosts, Gen.problem]
  · rw [h.gnode]
    intro i hi h1
    obtain ⟨k, rfl⟩ : ∃ k, i = k + 1 := ⟨i - 1, by omega⟩
    have hk : k < nd.length := by simpa using hi
    rw [List.getElem_cons_succ, List.getElem_map]
    have e1 : nd.getD (k + 1 - 1) default = nd[k] := by
      rw [Nat.add_sub_cancel]; exact List.getD_eq_getElem _ _ hk
    refine ⟨?_, ?_, fun x x1 x2 => ?_⟩
    · simp only [Problem.mapCosts, Gen.problem, e1]; rfl
    · simp only [Problem.mapCosts, Gen.problem, e1]; rfl
    · simp only [Problem.mapCosts, Gen.problem, e1] at x1 x2 ⊢
      exact congrArg Except.ok (he1 _ _ (h.nd_ok _ (List.getElem_mem hk)) x1 x2)
  · rw [h.gedge]
    have hlen := h.pd_len
    have hok := h.pd_ok
    show List.Forall₂ OmegaLimit.Is _ ((List.zipWith _ ends pd).map _)
    clear h
    induction ends generalizing pd with
    | nil => simp
    | cons p ends ih =>
      cases pd with
      | nil => simp
      | cons d pd =>
        simp only [List.zipWith_cons_cons, List.map_cons]
        refine .cons ⟨rfl, rfl, rfl, rfl, fun x x1 x2 => ?_⟩ (ih (by simpa using hlen) fun d hd => hok d (List.mem_cons_of_mem _ hd))
        exact congrArg Except.ok (he2 _ _ (hok d List.mem_cons_self) x1 x2)

end

theorem mapCosts_id (P : Problem K) : P.mapCosts (fun x => x) = P := by
  unfold Problem.mapCosts
  simp

end

/-! ### Exact evaluation in floating-point arithmetic -/

section
variable {f : Format} (hj : f.emin ≤ -2) (hm : f.p ≤ f.emax)
include hj hm

theorem result_quarter {k : Int} (hb : |k| < 2 ^ f.p) : f.result ((k : ℚ) / 4) = .fin ((k : ℚ) / 4) := by
  have e : (k : ℚ) / 4 = k * pow2 (-2) := by
    rw [show pow2 (-2) = 1 / 4 by norm_num [pow2]]; ring
  rw [e]
  exact result_exact hj (by exact_mod_cast hb) (by omega)

theorem flt_int {k : Int} (hb : |k| < 2 ^ (f.p - 2)) (hp : 2 ≤ f.p) : ((k : Int) : Flt f) = Flt.ofRat f (((4 * k : Int) : ℚ) / 4) := by
  have h4 : |4 * k| < 2 ^ f.p := by
    rw [abs_mul, show (2 : Int) ^ f.p = 4 * 2 ^ (f.p - 2) by
      conv_lhs => rw [← Nat.sub_add_cancel hp, pow_add]
      ring]
    rw [show |(4 : Int)| = 4 from rfl]
    omega
  have := result_quarter hj hm h4
  show (⟨f.result (k : ℚ)⟩ : Flt f) = ⟨.fin _⟩
  rw [← this]
  congr 2
  push_cast
  ring

theorem flt_mul {a k : Int} (hk : |k| < 2 ^ (f.p - 2)) (hp : 2 ≤ f.p) (hb : |a * k| < 2 ^ f.p) :
    Flt.ofRat f ((a : ℚ) / 4) * ((k : Int) : Flt f) = Flt.ofRat f (((a * k : Int) : ℚ) / 4) := by
  rw [flt_int hj hm hk hp]
  have := result_quarter hj hm hb
  show (⟨f.result ((a : ℚ) / 4 * (((4 * k : Int) : ℚ) / 4))⟩ : Flt f) = ⟨.fin _⟩
  rw [← this]
  congr 2
  push_cast
  ring

theorem flt_add {a b : Int} (hb : |a + b| < 2 ^ f.p) :
    Flt.ofRat f ((a : ℚ) / 4) + Flt.ofRat f ((b : ℚ) / 4) = Flt.ofRat f (((a + b : Int) : ℚ) / 4) := by
  have := result_quarter hj hm hb
  show (⟨f.result ((a : ℚ) / 4 + (b : ℚ) / 4)⟩ : Flt f) = ⟨.fin _⟩
  rw [← this]
  congr 2
  push_cast
  ring

theorem flt_quarter {k : Int} (hb : |k| < 2 ^ (f.p - 2)) (hp : 5 ≤ f.p) :
    ((k : Int) : Flt f) / ((4 : Int) : Flt f) = Flt.ofRat f ((k : ℚ) / 4) := by
  have h4 : |(4 : Int)| < 2 ^ (f.p - 2) := by
    have : (2 : Int) ^ 3 ≤ 2 ^ (f.p - 2) := pow_le_pow_right₀ (by norm_num) (by omega)
    have h : |(4 : Int)| = 4 := rfl
    omega
  rw [flt_int hj hm hb (by omega), flt_int hj hm h4 (by omega)]
  have hb' : |k| < 2 ^ f.p := lt_of_lt_of_le hb (pow_le_pow_right₀ (by norm_num) (by omega))
  have := result_quarter hj hm hb'
  show Flt.rnd f (if ((4 * 4 : Int) : ℚ) / 4 = 0 then _ else .fin ((((4 * k : Int) : ℚ) / 4) / (((4 * 4 : Int) : ℚ) / 4))) = ⟨.fin _⟩
  rw [if_neg (by norm_num)]
  show (⟨f.result ((((4 * k : Int) : ℚ) / 4) / (((4 * 4 : Int) : ℚ) / 4))⟩ : Flt f) = ⟨.fin _⟩
  rw [← this]
  congr 2
  push_cast
  ring

theorem quad_flt {a b c x : Int} {A X : Int} (ha : |a| ≤ A) (hb : |b| ≤ A) (hc : |c| ≤ A) (hx : |x| ≤ X) (hp : 5 ≤ f.p)
    (hX : X < 2 ^ (f.p - 2)) (hA : A < 2 ^ (f.p - 2)) (h : A * X * X + A * X + A < 2 ^ f.p) :
    (quad a b c x : Flt f) = Flt.ofRat f (quad a b c x) := by
  have hA0 : 0 ≤ A := (abs_nonneg a).trans ha
  have hX0 : 0 ≤ X := (abs_nonneg x).trans hx
  have hAX : 0 ≤ A * X := mul_nonneg hA0 hX0
  have hAXX : 0 ≤ A * X * X := mul_nonneg hAX hX0
  have m1 : |a * x| ≤ A * X := by rw [abs_mul]; exact mul_le_mul ha hx (abs_nonneg _) hA0
  have m2 : |a * x * x| ≤ A * X * X := by rw [abs_mul]; exact mul_le_mul m1 hx (abs_nonneg _) hAX
  have m3 : |b * x| ≤ A * X := by rw [abs_mul]; exact mul_le_mul hb hx (abs_nonneg _) hA0
  have p1 : |a * x| < 2 ^ f.p := by
    by_cases h0 : X = 0
    · have : x = 0 := abs_eq_zero.1 (le_antisymm (by omega) (abs_nonneg _))
      rw [this]; simp
    · nlinarith
  unfold quad
  rw [flt_quarter hj hm (ha.trans_lt hA) hp, flt_mul hj hm (hx.trans_lt hX) (by omega) p1,
    flt_mul hj hm (hx.trans_lt hX) (by omega) (by omega), flt_quarter hj hm (hb.trans_lt hA) hp,
    flt_mul hj hm (hx.trans_lt hX) (by omega) (by omega), flt_quarter hj hm (hc.trans_lt hA) hp,
    flt_add hj hm ((abs_add_le _ _).trans_lt (by omega)), flt_add hj hm ?_]
  · congr 1
    push_cast
    ring
  · have := abs_add_le (a * x * x + b * x) c
    have := abs_add_le (a * x * x) (b * x)
    omega

end

theorem Desc.OK.flt {lim fl : Int × Int} {d : Desc} (h : d.OK lim fl) {X A : Int} (n1 : -X ≤ lim.1) (n2 : lim.2 ≤ X) (f1 : -A ≤ fl.1) (f2 : fl.2 ≤ A)
    (hA : 0 ≤ A) (hA' : 4 * A < 2 ^ 51) (hX : X < 2 ^ 51) (hb : 4 * A * (X * X + X + 1) < 2 ^ 53) {x : Int} (x1 : d.l ≤ x) (x2 : x ≤ d.u) :
    (quad d.a d.b d.c x : Flt binary64) = Flt.ofRat binary64 (quad d.a d.b d.c x) := by
  obtain ⟨g1, g2, g3, g4, g5, g6, g7, g8, g9⟩ := h
  refine quad_flt (f := binary64) (by decide) (by decide) (A := 4 * A) (X := X) ?_ ?_ ?_ ?_ (by decide) hX hA' ?_
  · rw [abs_le]; omega
  · rw [abs_le]; omega
  · rw [abs_le]; omega
  · rw [abs_le]; omega
  · show 4 * A * X * X + 4 * A * X + 4 * A < 2 ^ 53
    linarith

theorem Out.represents_flt {n mlimit : Int} {multi : Bool} {nl el fl : Int × Int} {ends : List (Int × Int)} {nd pd : List Desc} {g : Graph (Flt binary64)}
    (h : Out (Flt binary64) n mlimit multi nl el fl g ends nd pd) {X A : Int} (n1 : -X ≤ nl.1) (n2 : nl.2 ≤ X) (e1 : -X ≤ el.1) (e2 : el.2 ≤ X)
    (f1 : -A ≤ fl.1) (f2 : fl.2 ≤ A) (hA : 0 ≤ A) (hA' : 4 * A < 2 ^ 51) (hX : X < 2 ^ 51) (hb : 4 * A * (X * X + X + 1) < 2 ^ 53) :
    Represents ((Gen.problem ℚ ends nd pd).mapCosts (Flt.ofRat binary64)) g.node g.edge :=
  h.represents (fun _ _ hd x1 x2 => hd.flt n1 n2 f1 f2 hA hA' hX hb x1 x2) fun _ _ hd x1 x2 => hd.flt e1 e2 f1 f2 hA hA' hX hb x1 x2

end Gen
end AHO
