import Verif.Model.Solver
import Verif.Proof.FlowMin
/-!
# `merge_limits`
-/

namespace AHO
open Spec
set_option linter.unusedSectionVars false

variable {K : Type} [Field K] [LinearOrder K] [IsStrictOrderedRing K]

/-- the arc in the other direction -/
def revP (p : Pair K) : Pair K := ⟨p.j, p.i, -p.u, -p.l, fun x => p.B (-x)⟩

/-- two arcs on the same pair as one -/
def mrgP (p q : Pair K) : Pair K := ⟨p.i, p.j, max p.l q.l, min p.u q.u, fun x => p.B x + q.B x⟩

section
variable {n : Nat} {R W : Int}

theorem ArcIn.rev {p : Pair K} (h : ArcIn n R W p) : ArcIn n R W (revP p) := by
  have h1 := h.le
  have h2 := h.lo
  have h3 := h.hi
  have h4 := h.wd
  refine ⟨h.j_le, h.i_le, h.ne.symm, ?_, ?_, ?_, ?_, ?_⟩
  · show -p.u ≤ -p.l; omega
  · show -R ≤ -p.u; omega
  · show -p.l ≤ R; omega
  · show -p.l - -p.u ≤ W; omega
  · intro x a b
    have a' : -p.u ≤ x := a
    have b' : x + 2 ≤ -p.l := b
    have := h.conv (-(x + 2)) (by omega) (by omega)
    show p.B (-(x + 1)) - p.B (-x) ≤ p.B (-(x + 2)) - p.B (-(x + 1))
    rw [show -(x + 2) + 1 = -(x + 1) by ring, show -(x + 2) + 2 = -x by ring] at this
    linarith

theorem ArcIn.mrg {p q : Pair K} (h : ArcIn n R W p) (h' : ArcIn n R W q) (hle : max p.l q.l ≤ min p.u q.u) :
    ArcIn n R W (mrgP p q) := by
  have h2 := h.lo
  have h3 := h.hi
  have h4 := h.wd
  refine ⟨h.i_le, h.j_le, h.ne, hle, ?_, ?_, ?_, convex_add h.conv h'.conv⟩
  · show -R ≤ max p.l q.l; omega
  · show min p.u q.u ≤ R; omega
  · show min p.u q.u - max p.l q.l ≤ W; omega

theorem revP_range {p : Pair K} {π : Nat → Int} :
    ((revP p).l ≤ π (revP p).i - π (revP p).j ∧ π (revP p).i - π (revP p).j ≤ (revP p).u) ↔
      (p.l ≤ π p.i - π p.j ∧ π p.i - π p.j ≤ p.u) := by
  simp only [revP]
  omega

theorem revP_cost {p : Pair K} {π : Nat → Int} :
    (revP p).B (π (revP p).i - π (revP p).j) = p.B (π p.i - π p.j) := by
  simp [revP]

theorem arcsFeasible_cons {p : Pair K} {ps : List (Pair K)} {π : Nat → Int} :
    ArcsFeasible (p :: ps) π ↔ (p.l ≤ π p.i - π p.j ∧ π p.i - π p.j ≤ p.u) ∧ ArcsFeasible ps π := by
  simp [ArcsFeasible]

theorem arcsFeasible_append {ps qs : List (Pair K)} {π : Nat → Int} :
    ArcsFeasible (ps ++ qs) π ↔ ArcsFeasible ps π ∧ ArcsFeasible qs π := by
  simp only [ArcsFeasible, List.mem_append]
  constructor
  · exact fun h => ⟨fun p hp => h p (.inl hp), fun p hp => h p (.inr hp)⟩
  · rintro ⟨h1, h2⟩ p (hp | hp)
    · exact h1 p hp
    · exact h2 p hp

theorem arcsCost_cons {p : Pair K} {ps : List (Pair K)} {π : Nat → Int} :
    arcsCost (p :: ps) π = p.B (π p.i - π p.j) + arcsCost ps π := by
  simp [arcsCost]

theorem arcsCost_append {ps qs : List (Pair K)} {π : Nat → Int} :
    arcsCost (ps ++ qs) π = arcsCost ps π + arcsCost qs π := by
  simp [arcsCost]

end

namespace ProblemSolver

/-! ### The map -/

theorem keyLt_iff {a b : Nat × Nat} : keyLt a b = true ↔ a.1 < b.1 ∨ (a.1 = b.1 ∧ a.2 < b.2) := by
  simp [keyLt]

theorem keyLt_trans {a b c : Nat × Nat} (h1 : keyLt a b = true) (h2 : keyLt b c = true) : keyLt a c = true := by
  rw [keyLt_iff] at *; omega

theorem keyLt_irrefl {a : Nat × Nat} : ¬ keyLt a a = true := by
  rw [keyLt_iff]; omega

theorem keyLt_total {a b : Nat × Nat} (h : ¬ keyLt a b = true) (hne : ¬ b = a) : keyLt b a = true := by
  rw [keyLt_iff] at *
  have : ¬ (b.1 = a.1 ∧ b.2 = a.2) := fun h => hne (Prod.ext h.1 h.2)
  omega

/-- keys in strictly increasing order -/
def Sorted (mp : LimitMap K) : Prop := mp.Pairwise fun a b => keyLt a.1 b.1 = true

theorem mapFind_none {mp : LimitMap K} {k : Nat × Nat} (h : mapFind mp k = none) : ∀ kv ∈ mp, kv.1 ≠ k := by
  induction mp with
  | nil => simp
  | cons a mp ih =>
    obtain ⟨k', v⟩ := a
    unfold mapFind at h
    split at h
    · cases h
    · rename_i hne
      intro kv hkv
      rcases List.mem_cons.1 hkv with rfl | hkv
      · exact hne
      · exact ih h kv hkv

theorem mem_mapSet {mp : LimitMap K} {k : Nat × Nat} {v : OmegaLimit K} {kv} (h : kv ∈ mapSet mp k v) :
    kv = (k, v) ∨ kv ∈ mp := by
  induction mp with
  | nil => left; simpa [mapSet] using h
  | cons a mp ih =>
    obtain ⟨k', v'⟩ := a
    unfold mapSet at h
    split at h
    · rcases List.mem_cons.1 h with h | h
      · exact .inl h
      · exact .inr (List.mem_cons_of_mem _ h)
    · split at h
      · rcases List.mem_cons.1 h with h | h
        · exact .inl h
        · exact .inr h
      · rcases List.mem_cons.1 h with h | h
        · exact .inr (h ▸ List.mem_cons_self)
        · rcases ih h with h | h
          · exact .inl h
          · exact .inr (List.mem_cons_of_mem _ h)

theorem Sorted.mapSet {mp : LimitMap K} (h : Sorted mp) (k : Nat × Nat) (v : OmegaLimit K) :
    Sorted (mapSet mp k v) := by
  induction mp with
  | nil => simp [ProblemSolver.mapSet, Sorted]
  | cons a mp ih =>
    obtain ⟨k', v'⟩ := a
    have h' := List.pairwise_cons.1 h
    unfold ProblemSolver.mapSet
    split
    · rename_i he
      subst he
      exact List.pairwise_cons.2 ⟨h'.1, h'.2⟩
    · rename_i he
      split
      · rename_i hlt
        refine List.pairwise_cons.2 ⟨fun b hb => ?_, h⟩
        rcases List.mem_cons.1 hb with rfl | hb
        · exact hlt
        · exact keyLt_trans hlt (h'.1 b hb)
      · rename_i hlt
        refine List.pairwise_cons.2 ⟨fun b hb => ?_, ih h'.2⟩
        rcases mem_mapSet hb with rfl | hb
        · exact keyLt_total hlt he
        · exact h'.1 b hb

/-- inserting a new key -/
theorem mapSet_new {mp : LimitMap K} {k : Nat × Nat} {v : OmegaLimit K} (h : mapFind mp k = none) :
    ∃ a b, mp = a ++ b ∧ mapSet mp k v = a ++ (k, v) :: b := by
  induction mp with
  | nil => exact ⟨[], [], rfl, rfl⟩
  | cons x mp ih =>
    obtain ⟨k', v'⟩ := x
    unfold mapFind at h
    split at h
    · cases h
    · rename_i he
      unfold mapSet
      rw [if_neg he]
      split
      · exact ⟨[], (k', v') :: mp, rfl, rfl⟩
      · obtain ⟨a, b, e1, e2⟩ := ih h
        exact ⟨(k', v') :: a, b, by rw [e1]; rfl, by rw [e2]; rfl⟩

/-- replacing the value of a key -/
theorem mapSet_old {mp : LimitMap K} {k : Nat × Nat} {v w : OmegaLimit K} (hs : Sorted mp) (h : mapFind mp k = some w) :
    ∃ a b, mp = a ++ (k, w) :: b ∧ mapSet mp k v = a ++ (k, v) :: b := by
  induction mp with
  | nil => simp [mapFind] at h
  | cons x mp ih =>
    obtain ⟨k', v'⟩ := x
    have h' := List.pairwise_cons.1 hs
    unfold mapFind at h
    split at h
    · rename_i he
      subst he
      cases h
      refine ⟨[], mp, rfl, ?_⟩
      unfold mapSet
      rw [if_pos rfl]; rfl
    · rename_i he
      obtain ⟨a, b, e1, e2⟩ := ih h'.2 h
      unfold mapSet
      rw [if_neg he, if_neg]
      · exact ⟨(k', v') :: a, b, by rw [e1]; rfl, by rw [e2]; rfl⟩
      · intro hlt
        have := h'.1 (k, w) (by rw [e1]; simp)
        exact keyLt_irrefl (keyLt_trans hlt this)

theorem forall₂_split {α β : Type} {r : α → β → Prop} : ∀ {a b : List α} {ps : List β}, List.Forall₂ r (a ++ b) ps →
    ∃ pa pb, List.Forall₂ r a pa ∧ List.Forall₂ r b pb ∧ ps = pa ++ pb := by
  intro a
  induction a with
  | nil => intro b ps h; exact ⟨[], ps, .nil, h, rfl⟩
  | cons x a ih =>
    intro b ps h
    cases h with
    | cons h1 h2 =>
      obtain ⟨pa, pb, e1, e2, rfl⟩ := ih h2
      exact ⟨_ :: pa, pb, .cons h1 e1, e2, rfl⟩

/-- the map stands for the arcs `ps` -/
def KV (kv : (Nat × Nat) × OmegaLimit K) (p : Pair K) : Prop := kv.2.Is p ∧ kv.1 = (p.i, p.j) ∧ p.j < p.i

/-! ### The loop -/

section
variable {imax : Int} {n : Nat} {R W : Int}

theorem mergeLoop_cons (e : OmegaLimit K) (Os : List (OmegaLimit K)) (mp : LimitMap K) :
    mergeLoop imax (e :: Os) mp = (if e.i < e.j then e.reverse imax else .ok e) >>= fun it =>
      match mapFind mp (it.i, it.j) with
      | some v => v.merge it >>= fun x =>
        if x.2 then .ok none else mergeLoop imax Os (mapSet mp (it.i, it.j) x.1)
      | none => mergeLoop imax Os (mapSet mp (it.i, it.j) it) := by
  rw [mergeLoop]
  split <;> rfl

/-- What `merge_limits` needs of the arcs: distinct ends and a range which can be negated; closed under its operations. -/
structure MergeInv (R : Int) (G : Pair K → Prop) : Prop where
  ne : ∀ {p}, G p → p.i ≠ p.j
  le : ∀ {p}, G p → p.l ≤ p.u
  lo : ∀ {p}, G p → -R ≤ p.l
  hi : ∀ {p}, G p → p.u ≤ R
  rev : ∀ {p}, G p → G (revP p)
  mrg : ∀ {p q}, G p → G q → max p.l q.l ≤ min p.u q.u → G (mrgP p q)

/-- `φ`: any quantity which reversing does not change and merging does not increase -/
theorem mergeLoop_sum {G : Pair K → Prop} (hG : MergeInv R G) (hR : R ≤ imax) {φ : Pair K → K} (hφr : ∀ {p}, G p → φ (revP p) = φ p)
    (hφm : ∀ {p q}, G p → G q → max p.l q.l ≤ min p.u q.u → φ (mrgP p q) ≤ φ p + φ q) : ∀ (Os : List (OmegaLimit K)) (qs : List (Pair K)) (mp : LimitMap K)
    (ps : List (Pair K)), List.Forall₂ OmegaLimit.Is Os qs → List.Forall₂ KV mp ps → Sorted mp →
    (∀ q ∈ qs, G q) → (∀ p ∈ ps, G p) →
    (mergeLoop imax Os mp = .ok none ∧ ∀ π, ¬ (ArcsFeasible qs π ∧ ArcsFeasible ps π)) ∨
    ∃ mp' ps', mergeLoop imax Os mp = .ok (some mp') ∧ List.Forall₂ KV mp' ps' ∧ Sorted mp' ∧
      (∀ p ∈ ps', G p) ∧ mp'.length ≤ Os.length + mp.length ∧
      (ps'.map φ).sum ≤ (qs.map φ).sum + (ps.map φ).sum ∧
      ∀ π, (ArcsFeasible ps' π ↔ ArcsFeasible qs π ∧ ArcsFeasible ps π) ∧
        arcsCost ps' π = arcsCost qs π + arcsCost ps π := by
  intro Os
  induction Os with
  | nil =>
    intro qs mp ps h1 h2 hs g1 g2
    cases h1
    exact .inr ⟨mp, ps, rfl, h2, hs, g2, by simp, by simp, fun π => ⟨by simp [ArcsFeasible], by simp [arcsCost]⟩⟩
  | cons e Os ih =>
    intro qs mp ps h1 h2 hs g1 g2
    cases h1 with
    | cons hep hrest =>
      rename_i p0 qs
      -- the arc in the standard direction
      obtain ⟨it, p, r1, r2, r3, r4, r7, r5, r6⟩ : ∃ it p, (if e.i < e.j then e.reverse imax else .ok e) = .ok it ∧
          it.Is p ∧ G p ∧ p.j < p.i ∧ φ p = φ p0 ∧
          (∀ π : Nat → Int, (p.l ≤ π p.i - π p.j ∧ π p.i - π p.j ≤ p.u) ↔
            (p0.l ≤ π p0.i - π p0.j ∧ π p0.i - π p0.j ≤ p0.u)) ∧
          ∀ π : Nat → Int, p.B (π p.i - π p.j) = p0.B (π p0.i - π p0.j) := by
        have g := g1 p0 (by simp)
        by_cases hij : e.i < e.j
        · rw [if_pos hij]
          have l1 := (hG.lo g)
          have l2 := (hG.hi g)
          have l3 := (hG.le g)
          obtain ⟨fn', f1, f2⟩ := reverse_spec (imax := imax) (e := e) (by rw [hep.l]; omega)
            (by rw [hep.l, hep.u]; omega) (by rw [hep.u]; omega)
          refine ⟨_, revP p0, f1, ⟨hep.j, hep.i, by rw [hep.u]; rfl, by rw [hep.l]; rfl, ?_⟩, (hG.rev g), ?_, hφr g,
            fun π => revP_range, fun π => revP_cost⟩
          · have := f2 p0.B (by rw [hep.l, hep.u]; exact hep.fn)
            rw [hep.l, hep.u] at this
            exact this
          · show p0.i < p0.j
            rw [← hep.i, ← hep.j]; exact hij
        · rw [if_neg hij]
          refine ⟨e, p0, rfl, hep, g, ?_, rfl, fun π => Iff.rfl, fun π => rfl⟩
          have := (hG.ne g)
          rw [← hep.i, ← hep.j] at this ⊢
          omega
      have g1' : ∀ q ∈ qs, G q := fun q hq => g1 q (List.mem_cons_of_mem _ hq)
      rw [mergeLoop_cons, r1, ok_bind]
      cases hf : mapFind mp (it.i, it.j) with
      | none =>
        simp only
        obtain ⟨a, b, e1, e2⟩ := mapSet_new (v := it) hf
        rw [e1] at h2
        obtain ⟨pa, pb, f1, f2, rfl⟩ : ∃ pa pb, List.Forall₂ KV a pa ∧ List.Forall₂ KV b pb ∧ ps = pa ++ pb := forall₂_split h2
        have hnew : List.Forall₂ KV (mapSet mp (it.i, it.j) it) (pa ++ p :: pb) := by
          rw [e2]
          exact List.rel_append f1 (.cons ⟨r2, by rw [r2.i, r2.j], r4⟩ f2)
        rcases ih qs _ _ hrest hnew (hs.mapSet _ _) g1' (by
            intro q hq
            rcases List.mem_append.1 hq with hq | hq
            · exact g2 q (List.mem_append_left _ hq)
            · rcases List.mem_cons.1 hq with rfl | hq
              · exact r3
              · exact g2 q (List.mem_append_right _ hq)) with ⟨d1, d2⟩ | ⟨mp', ps', d1, d2, d3, d4, d6, d7, d5⟩
        · refine .inl ⟨d1, fun π hπ => d2 π ⟨(arcsFeasible_cons.1 hπ.1).2, ?_⟩⟩
          rw [arcsFeasible_append, arcsFeasible_cons, r5]
          have := arcsFeasible_append.1 hπ.2
          exact ⟨this.1, (arcsFeasible_cons.1 hπ.1).1, this.2⟩
        · refine .inr ⟨mp', ps', d1, d2, d3, d4, by rw [e2] at d6; rw [e1]; simp at d6 ⊢; omega, by
            simp only [List.map_append, List.map_cons, List.sum_append, List.sum_cons] at d7 ⊢; linarith, fun π => ?_⟩
          rw [(d5 π).1, (d5 π).2, arcsFeasible_append, arcsFeasible_cons, r5, arcsFeasible_append, arcsFeasible_cons,
            arcsCost_append, arcsCost_append, arcsCost_cons, arcsCost_cons, r6]
          exact ⟨by tauto, by ring⟩
      | some w =>
        simp only
        obtain ⟨a, b, e1, -⟩ := mapSet_old (v := it) hs hf
        have h2' := h2
        rw [e1] at h2'
        obtain ⟨pa, pb', f1, f2, rfl⟩ : ∃ pa pb, List.Forall₂ KV a pa ∧
            List.Forall₂ KV (((it.i, it.j), w) :: b) pb ∧ ps = pa ++ pb := forall₂_split h2'
        cases f2 with
        | cons hw f2 =>
          rename_i pw pb
          have hki : w.i = it.i := by
            have := congrArg Prod.fst hw.2.1
            rw [hw.1.i]; exact this.symm
          have hkj : w.j = it.j := by
            have := congrArg Prod.snd hw.2.1
            rw [hw.1.j]; exact this.symm
          have gw := g2 pw (by simp)
          have epi : pw.i = p.i := by rw [← hw.1.i, hki, r2.i]
          have epj : pw.j = p.j := by rw [← hw.1.j, hkj, r2.j]
          obtain ⟨fn', m1, m2⟩ := merge_spec hki hkj
          rw [m1, ok_bind]
          dsimp only
          rw [hw.1.l, hw.1.u, r2.l, r2.u]
          by_cases herr : min pw.u p.u < max pw.l p.l
          · rw [decide_eq_true herr]
            refine .inl ⟨by simp, fun π hπ => ?_⟩
            have t1 := (arcsFeasible_cons.1 hπ.1).1
            rw [← r5] at t1
            have t2 := hπ.2 pw (by simp)
            rw [epi, epj] at t2
            omega
          · rw [decide_eq_false herr]
            simp only [Bool.false_eq_true, if_false]
            obtain ⟨a', b', e1', e2'⟩ := mapSet_old (v := { l := max pw.l p.l, u := min pw.u p.u, fn := fn', i := w.i, j := w.j }) hs hf
            have haa : a' = a ∧ b' = b := by
              rw [e1] at e1'
              -- the key occurs once
              have hsz : ∀ (a a' : LimitMap K) (b b' : LimitMap K) (x : (Nat × Nat) × OmegaLimit K),
                  Sorted (a ++ x :: b) → a ++ x :: b = a' ++ x :: b' → a' = a ∧ b' = b := by
                intro a
                induction a with
                | nil =>
                  intro a' b b' x hs he
                  cases a' with
                  | nil => simp at he; exact ⟨rfl, he.symm⟩
                  | cons y a' =>
                    simp at he
                    obtain ⟨rfl, he⟩ := he
                    have := (List.pairwise_cons.1 hs).1 x (by rw [he]; simp)
                    exact absurd this keyLt_irrefl
                | cons y a ih =>
                  intro a' b b' x hs he
                  have hs' := List.pairwise_cons.1 hs
                  cases a' with
                  | nil =>
                    simp at he
                    obtain ⟨rfl, he⟩ := he
                    have := hs'.1 y (by simp)
                    exact absurd this keyLt_irrefl
                  | cons z a' =>
                    simp at he
                    obtain ⟨rfl, he⟩ := he
                    obtain ⟨rfl, rfl⟩ := ih a' b b' x hs'.2 he
                    exact ⟨rfl, rfl⟩
              exact hsz _ _ _ _ _ (by rw [← e1]; exact hs) e1'
            obtain ⟨rfl, rfl⟩ := haa
            have hnew : List.Forall₂ KV (mapSet mp (it.i, it.j)
                { l := max pw.l p.l, u := min pw.u p.u, fn := fn', i := w.i, j := w.j }) (pa ++ mrgP pw p :: pb) := by
              rw [e2']
              refine List.rel_append f1 (.cons ⟨⟨hw.1.i, hw.1.j, rfl, rfl, ?_⟩, hw.2.1, hw.2.2⟩ f2)
              have := m2 pw.B p.B (by rw [hw.1.l, hw.1.u]; exact hw.1.fn) (by rw [r2.l, r2.u]; exact r2.fn)
              rw [hw.1.l, hw.1.u, r2.l, r2.u] at this
              exact this
            have hrng : ∀ π : Nat → Int, ((mrgP pw p).l ≤ π (mrgP pw p).i - π (mrgP pw p).j ∧
                π (mrgP pw p).i - π (mrgP pw p).j ≤ (mrgP pw p).u) ↔
                (pw.l ≤ π pw.i - π pw.j ∧ π pw.i - π pw.j ≤ pw.u) ∧ (p.l ≤ π p.i - π p.j ∧ π p.i - π p.j ≤ p.u) := by
              intro π
              simp only [mrgP]
              rw [epi, epj]
              omega
            have hcst : ∀ π : Nat → Int, (mrgP pw p).B (π (mrgP pw p).i - π (mrgP pw p).j) =
                pw.B (π pw.i - π pw.j) + p.B (π p.i - π p.j) := by
              intro π
              simp only [mrgP]
              rw [epi, epj]
            rcases ih qs _ _ hrest hnew (hs.mapSet _ _) g1' (by
                intro q hq
                rcases List.mem_append.1 hq with hq | hq
                · exact g2 q (List.mem_append_left _ hq)
                · rcases List.mem_cons.1 hq with rfl | hq
                  · exact hG.mrg gw r3 (by omega)
                  · exact g2 q (List.mem_append_right _ (List.mem_cons_of_mem _ hq))) with
              ⟨d1, d2⟩ | ⟨mp', ps', d1, d2, d3, d4, d6, d7, d5⟩
            · refine .inl ⟨d1, fun π hπ => d2 π ⟨(arcsFeasible_cons.1 hπ.1).2, ?_⟩⟩
              rw [arcsFeasible_append, arcsFeasible_cons, hrng, r5]
              have := arcsFeasible_append.1 hπ.2
              have h3 := arcsFeasible_cons.1 this.2
              exact ⟨this.1, ⟨h3.1, (arcsFeasible_cons.1 hπ.1).1⟩, h3.2⟩
            · refine .inr ⟨mp', ps', d1, d2, d3, d4, by rw [e2'] at d6; rw [e1]; simp at d6 ⊢; omega, by
                have := hφm gw r3 (by omega)
                simp only [List.map_append, List.map_cons, List.sum_append, List.sum_cons] at d7 ⊢; linarith, fun π => ?_⟩
              rw [(d5 π).1, (d5 π).2, arcsFeasible_append, arcsFeasible_cons, hrng, r5, arcsFeasible_append,
                arcsFeasible_cons, arcsFeasible_cons, arcsCost_append, arcsCost_append, arcsCost_cons, arcsCost_cons,
                arcsCost_cons, hcst, r6]
              exact ⟨by tauto, by ring⟩

theorem mergeLoop_gen {G : Pair K → Prop} (hG : MergeInv R G) (hR : R ≤ imax) : ∀ (Os : List (OmegaLimit K)) (qs : List (Pair K)) (mp : LimitMap K)
    (ps : List (Pair K)), List.Forall₂ OmegaLimit.Is Os qs → List.Forall₂ KV mp ps → Sorted mp →
    (∀ q ∈ qs, G q) → (∀ p ∈ ps, G p) →
    (mergeLoop imax Os mp = .ok none ∧ ∀ π, ¬ (ArcsFeasible qs π ∧ ArcsFeasible ps π)) ∨
    ∃ mp' ps', mergeLoop imax Os mp = .ok (some mp') ∧ List.Forall₂ KV mp' ps' ∧ Sorted mp' ∧
      (∀ p ∈ ps', G p) ∧ mp'.length ≤ Os.length + mp.length ∧
      ∀ π, (ArcsFeasible ps' π ↔ ArcsFeasible qs π ∧ ArcsFeasible ps π) ∧
        arcsCost ps' π = arcsCost qs π + arcsCost ps π := by
  intro Os qs mp ps h1 h2 hs g1 g2
  rcases mergeLoop_sum hG hR (φ := fun _ => 0) (fun _ => rfl) (fun _ _ _ => by simp) Os qs mp ps h1 h2 hs g1 g2 with
    h | ⟨mp', ps', d1, d2, d3, d4, d5, -, d6⟩
  · exact .inl h
  · exact .inr ⟨mp', ps', d1, d2, d3, d4, d5, d6⟩

theorem mergeLoop_spec (hR : R ≤ imax) : ∀ (Os : List (OmegaLimit K)) (qs : List (Pair K)) (mp : LimitMap K)
    (ps : List (Pair K)), List.Forall₂ OmegaLimit.Is Os qs → List.Forall₂ KV mp ps → Sorted mp →
    (∀ q ∈ qs, ArcIn n R W q) → (∀ p ∈ ps, ArcIn n R W p) →
    (mergeLoop imax Os mp = .ok none ∧ ∀ π, ¬ (ArcsFeasible qs π ∧ ArcsFeasible ps π)) ∨
    ∃ mp' ps', mergeLoop imax Os mp = .ok (some mp') ∧ List.Forall₂ KV mp' ps' ∧ Sorted mp' ∧
      (∀ p ∈ ps', ArcIn n R W p) ∧ mp'.length ≤ Os.length + mp.length ∧
      ∀ π, (ArcsFeasible ps' π ↔ ArcsFeasible qs π ∧ ArcsFeasible ps π) ∧
        arcsCost ps' π = arcsCost qs π + arcsCost ps π :=
  mergeLoop_gen ⟨ArcIn.ne, ArcIn.le, ArcIn.lo, ArcIn.hi, ArcIn.rev, ArcIn.mrg⟩ hR

end
end ProblemSolver
end AHO
