import Verif.Proof.LCTAmort
import Verif.Proof.LCTOps
/-!
# Sizes of the subtrees of the forest
-/

namespace AHO.LCT
open AHO T

open Classical in
/-- number of nodes below `v`, itself included -/
noncomputable def siz (N : Nat) (par : Nat → Option Nat) (v : Nat) : Nat :=
  ((Finset.range N).filter fun u => OnPath par u v).card

theorem siz_le (N : Nat) (par : Nat → Option Nat) (v : Nat) : siz N par v ≤ N := by
  classical
  refine (Finset.card_filter_le _ _).trans ?_
  simp

theorem siz_pos {N : Nat} {par : Nat → Option Nat} {v : Nat} (hv : v < N) : 1 ≤ siz N par v := by
  classical
  unfold siz
  rw [Nat.succ_le_iff, Finset.card_pos]
  exact ⟨v, by simp only [Finset.mem_filter, Finset.mem_range]; exact ⟨hv, .refl⟩⟩

/-- of two ancestors of a node, one is an ancestor of the other -/
theorem onPath_linear {par : Nat → Option Nat} {u a b : Nat} (ha : OnPath par u a) (hb : OnPath par u b) :
    OnPath par a b ∨ OnPath par b a := by
  induction ha using Relation.ReflTransGen.head_induction_on with
  | refl => exact .inl hb
  | @head u c hc h1 ih =>
    rcases hb.cases_head with rfl | ⟨c', hc', h2⟩
    · exact .inr (.head hc h1)
    · rw [Up] at hc hc'
      rw [hc] at hc'
      cases hc'
      exact ih h2

theorem siz_two {N : Nat} {par : Nat → Option Nat} (ac : Acyc par) {z y p : Nat} (hp : p < N) (h1 : par z = some p)
    (h2 : par y = some p) (hzy : z ≠ y) : siz N par z + siz N par y + 1 ≤ siz N par p := by
  classical
  have no : ∀ c, par c = some p → ¬ OnPath par p c := fun c hc h => ac p (Relation.TransGen.tail' h hc)
  have dis : ∀ a b, par a = some p → par b = some p → a ≠ b → ¬ OnPath par a b := by
    intro a b ha hb hab h
    rcases h.cases_head with rfl | ⟨c, hc, h⟩
    · exact hab rfl
    · rw [Up, ha] at hc
      cases hc
      exact no b hb h
  unfold siz
  have hd : Disjoint ((Finset.range N).filter fun u => OnPath par u z) ((Finset.range N).filter fun u => OnPath par u y) := by
    rw [Finset.disjoint_left]
    intro u hu hu'
    rw [Finset.mem_filter] at hu hu'
    rcases onPath_linear hu.2 hu'.2 with h | h
    · exact dis z y h1 h2 hzy h
    · exact dis y z h2 h1 (Ne.symm hzy) h
  have hpn : p ∉ ((Finset.range N).filter fun u => OnPath par u z) ∪ ((Finset.range N).filter fun u => OnPath par u y) := by
    simp only [Finset.mem_union, Finset.mem_filter, not_or, not_and]
    exact ⟨fun _ => no z h1, fun _ => no y h2⟩
  rw [← Finset.card_union_of_disjoint hd, ← Finset.card_insert_of_notMem hpn]
  refine Finset.card_le_card fun u hu => ?_
  simp only [Finset.mem_insert, Finset.mem_union, Finset.mem_filter, Finset.mem_range] at hu ⊢
  rcases hu with rfl | ⟨hu, h⟩ | ⟨hu, h⟩
  · exact ⟨hp, .refl⟩
  · exact ⟨hu, h.tail h1⟩
  · exact ⟨hu, h.tail h2⟩

theorem siz_child {N : Nat} {par : Nat → Option Nat} (ac : Acyc par) {z p : Nat} (hp : p < N) (h1 : par z = some p) :
    siz N par z + 1 ≤ siz N par p := by
  classical
  have no : ¬ OnPath par p z := fun h => ac p (Relation.TransGen.tail' h h1)
  unfold siz
  have hpn : p ∉ ((Finset.range N).filter fun u => OnPath par u z) := by
    simp only [Finset.mem_filter, not_and]
    exact fun _ => no
  rw [← Finset.card_insert_of_notMem hpn]
  refine Finset.card_le_card fun u hu => ?_
  simp only [Finset.mem_insert, Finset.mem_filter, Finset.mem_range] at hu ⊢
  rcases hu with rfl | ⟨hu, h⟩
  · exact ⟨hp, .refl⟩
  · exact ⟨hu, h.tail h1⟩

/-- ancestors after a link -/
theorem onPath_link {par : Nat → Option Nat} {x f : Nat} (hx : par x = none) (a b : Nat) :
    OnPath (Function.update par x (some f)) a b ↔ OnPath par a b ∨ (OnPath par a x ∧ OnPath par f b) := by
  have mono : ∀ a b, OnPath par a b → OnPath (Function.update par x (some f)) a b := by
    intro a b h
    refine Relation.ReflTransGen.mono (fun c d hcd => ?_) a b h
    have hcd : par c = some d := hcd
    show Function.update par x (some f) c = some d
    rw [Function.update_of_ne, hcd]
    rintro rfl
    rw [hx] at hcd; cases hcd
  constructor
  · intro hab
    induction hab using Relation.ReflTransGen.head_induction_on with
    | refl => exact .inl .refl
    | @head a c hac _ ih =>
      by_cases hax : a = x
      · subst hax
        have : c = f := by simpa [Up, eq_comm] using hac
        subst this
        rcases ih with ih | ih
        · exact .inr ⟨.refl, ih⟩
        · exact .inr ⟨.refl, ih.2⟩
      · have hac' : par a = some c := by simpa [Up, hax] using hac
        rcases ih with ih | ih
        · exact .inl (.head hac' ih)
        · exact .inr ⟨.head hac' ih.1, ih.2⟩
  · rintro (h | ⟨h1, h2⟩)
    · exact mono a b h
    · exact (mono a x h1).trans (.head (show Function.update par x (some f) x = some f by simp) (mono f b h2))

/-- sizes after a link -/
theorem siz_link {N : Nat} {par : Nat → Option Nat} {x f : Nat} (hx : par x = none) (hr : ¬ OnPath par f x) (k : Nat) :
    (OnPath par f k → siz N (Function.update par x (some f)) k = siz N par k + siz N par x) ∧
    (¬ OnPath par f k → siz N (Function.update par x (some f)) k = siz N par k) := by
  classical
  constructor
  · intro hk
    unfold siz
    have hd : Disjoint ((Finset.range N).filter fun u => OnPath par u k) ((Finset.range N).filter fun u => OnPath par u x) := by
      rw [Finset.disjoint_left]
      intro u hu hu'
      rw [Finset.mem_filter] at hu hu'
      rcases onPath_linear hu.2 hu'.2 with h | h
      · exact hr (hk.trans h)
      · rcases h.cases_head with rfl | ⟨c, hc, -⟩
        · exact hr hk
        · rw [Up, hx] at hc; cases hc
    rw [← Finset.card_union_of_disjoint hd]
    congr 1
    ext u
    simp only [Finset.mem_union, Finset.mem_filter, onPath_link hx]
    tauto
  · intro hk
    unfold siz
    congr 1
    ext u
    simp only [Finset.mem_filter, onPath_link hx]
    tauto

/-- the weights of an ordinary access -/
theorem wts_self {N : Nat} {par : Nat → Option Nat} (ac : Acyc par) (hr : ∀ v u, par v = some u → v < N → u < N) (v : Nat) :
    Wts N par (siz N par) (siz N par) v where
  pos k hk := siz_pos hk
  pos1 k hk := ⟨siz_pos hk, (siz_le N par k).trans (Nat.le_succ N)⟩
  shift := ⟨0, fun _ _ => rfl⟩
  edge z p h hz _ := siz_child ac (hr z p h hz) h
  edge1 z p h hz _ := siz_child ac (hr z p h hz) h
  cross1 z p h hz := by have := siz_child (N := N) ac (hr z p h hz) h; omega
  cross2 z y p h1 h2 hz hy hzy _ := by have := siz_two (N := N) ac (hr z p h1 hz) h1 h2 hzy; omega

/-- the weights of the access after a link: `v` counts one -/
theorem wts_link {N : Nat} {par : Nat → Option Nat} (ac : Acyc par) (hr : ∀ v u, par v = some u → v < N → u < N) {v f : Nat}
    (hv : par v = none) (hfN : f < N) (hfv : f ≠ v) :
    Wts N (Function.update par v (some f)) (siz N par) (fun k => if k = v then 1 else siz N par k + 1) v where
  pos k hk := siz_pos hk
  pos1 k hk := by
    have := siz_pos (par := par) hk
    have := siz_le N par k
    split <;> omega
  shift := ⟨1, fun k hk => by simp [hk]⟩
  edge z p h hz hzv := by
    rw [Function.update_of_ne hzv] at h
    exact siz_child ac (hr z p h hz) h
  edge1 z p h hz hpv := by
    by_cases hzv : z = v
    · subst hzv
      have : f = p := by simpa using h
      subst this
      have := siz_pos (par := par) hfN
      simp [hfv]; omega
    · rw [Function.update_of_ne hzv] at h
      have := siz_child (N := N) ac (hr z p h hz) h
      simp [hzv, hpv]; omega
  cross1 z p h hz := by
    by_cases hzv : z = v
    · subst hzv
      have : f = p := by simpa using h
      subst this
      simpa using siz_pos (par := par) hfN
    · rw [Function.update_of_ne hzv] at h
      have := siz_child (N := N) ac (hr z p h hz) h
      simp [hzv]; omega
  cross2 z y p h1 h2 hz hy hzy hyv := by
    rw [Function.update_of_ne hyv] at h2
    by_cases hzv : z = v
    · subst hzv
      have : f = p := by simpa using h1
      subst this
      have := siz_child (N := N) ac (hr y f h2 hy) h2
      simp; omega
    · rw [Function.update_of_ne hzv] at h1
      have := siz_two (N := N) ac (hr z p h1 hz) h1 h2 hzy
      simp [hzv]; omega

end AHO.LCT
