import Verif.Model.LCT
/-!
# Memory safety of the link-cut tree, whatever is stored in it

The lemmas of this file assume nothing about the values, and not that the pointers form trees: only that they point into the vector, and that the
`min` of every child has been computed. That is enough for no operation to dereference null or to leave the vector. (Whether the operations end is
another matter.)
-/

namespace AHO

/-- The computation has no outcome other than a result with `P`, an overflow of `int`, a failed assertion, or that a loop does not end. -/
def Safe {α : Type} (r : Res α) (P : α → Prop) : Prop :=
  match r with
  | .ok a => P a
  | .error e => e = .fuel ∨ e = .overflow ∨ e = .assertFail

namespace Safe
variable {α β : Type}

theorem ok {P : α → Prop} {a : α} (h : P a) : Safe (.ok a : Res α) P := h

theorem fuel {P : α → Prop} : Safe (.error .fuel : Res α) P := .inl rfl

theorem overflow {P : α → Prop} : Safe (.error .overflow : Res α) P := .inr (.inl rfl)

theorem assertFail {P : α → Prop} : Safe (.error .assertFail : Res α) P := .inr (.inr rfl)

theorem mono {r : Res α} {P Q : α → Prop} (h : Safe r P) (hi : ∀ a, P a → Q a) : Safe r Q := by
  cases r with
  | ok a => exact hi a h
  | error e => exact h

theorem bind {r : Res α} {P : α → Prop} {f : α → Res β} {Q : β → Prop} (h : Safe r P) (hf : ∀ a, P a → Safe (f a) Q) : Safe (r >>= f) Q := by
  cases r with
  | ok a => exact hf a h
  | error e => exact h

theorem ck (imax x : Int) : Safe (AHO.ck imax x) (fun y => y = x) := by
  unfold AHO.ck
  split
  · exact rfl
  · exact .overflow

theorem rd (v : Vec α) (i : Nat) (h : i < v.size) : Safe (v.rd i) (fun x => x = v.get i) := by
  unfold Vec.rd
  rw [if_pos h]
  exact rfl

theorem wr (v : Vec α) (i : Nat) (x : α) (h : i < v.size) : Safe (v.wr i x) (fun w => w = v.set i x) := by
  unfold Vec.wr
  rw [if_pos h]
  exact rfl

theorem whileLoop {σ : Type} {cond : σ → Res Bool} {body : σ → Res σ} {P : σ → Prop} (hc : ∀ s, P s → Safe (cond s) (fun _ => True))
    (hb : ∀ s, P s → cond s = .ok true → Safe (body s) P) : ∀ (fuel : Nat) (s : σ), P s → Safe (AHO.whileLoop cond body fuel s) P
  | 0, _, _ => .fuel
  | fuel + 1, s, h => by
    unfold AHO.whileLoop
    have h1 := hc s h
    cases hs : cond s with
    | error e => rw [hs] at h1; exact h1
    | ok b =>
      cases b with
      | true => exact (hb s h hs).bind fun s' h' => whileLoop hc hb fuel s' h'
      | false => exact h

theorem forRange {σ : Type} {body : σ → Nat → Res σ} {P : σ → Prop} : ∀ (cnt lo : Nat) (s : σ), P s →
    (∀ s i, lo ≤ i → i < lo + cnt → P s → Safe (body s i) P) → Safe (AHO.forRange body lo cnt s) P
  | 0, _, _, h, _ => h
  | cnt + 1, lo, s, h, hb => (hb s lo (Nat.le_refl _) (by omega) h).bind fun s' h' =>
      forRange cnt (lo + 1) s' h' fun s i h1 h2 => hb s i (by omega) (by omega)

theorem forRange' {σ : Type} {body : σ → Nat → Res σ} {P : Nat → σ → Prop} : ∀ (cnt lo : Nat) (s : σ), P lo s →
    (∀ s i, lo ≤ i → i < lo + cnt → P i s → Safe (body s i) (P (i + 1))) → Safe (AHO.forRange body lo cnt s) (P (lo + cnt))
  | 0, _, _, h, _ => h
  | cnt + 1, lo, s, h, hb => (hb s lo (Nat.le_refl _) (by omega) h).bind fun s' h' => by
      have := forRange' cnt (lo + 1) s' h' fun s i h1 h2 => hb s i (by omega) (by omega)
      rwa [show lo + 1 + cnt = lo + (cnt + 1) by omega] at this

theorem listRd {l : List α} {i : Nat} (h : i < l.length) : Safe (AHO.listRd l i) (fun x => x = l[i] ∧ x ∈ l) := by
  unfold AHO.listRd
  rw [List.getElem?_eq_getElem h]
  exact ⟨rfl, List.getElem_mem h⟩

end Safe

@[simp] theorem Vec.set_size' {α : Type} (v : Vec α) (i : Nat) (x : α) : (v.set i x).size = v.size := rfl

theorem Vec.set_get' {α : Type} (v : Vec α) (i : Nat) (x : α) (k : Nat) : (v.set i x).get k = if k = i then x else v.get k := rfl

theorem Except.bind_ok' {α β : Type} (a : α) (f : α → Res β) : ((.ok a : Res α) >>= f) = f a := rfl

namespace LCT
namespace Mem
variable {D : Type}

/-- the pointers lie in the vector, and the `min` of a child has been computed -/
structure PtrOk (N : Nat) (h : Heap D) : Prop where
  size : h.size = N
  fa : ∀ x f, x < N → (h.get x).fa = some f → f < N
  ch : ∀ x d c, x < N → LNode.ch (h.get x) d = some c → c < N ∧ (h.get c).minP ≠ none
  mn : ∀ x m, x < N → (h.get x).minP = some m → m < N

/-- the `min` of a node, once computed, stays so -/
def SeenLe (h h' : Heap D) : Prop := ∀ x, (h.get x).minP ≠ none → (h'.get x).minP ≠ none

theorem SeenLe.refl (h : Heap D) : SeenLe h h := fun _ hx => hx

theorem SeenLe.trans {h₁ h₂ h₃ : Heap D} (a : SeenLe h₁ h₂) (b : SeenLe h₂ h₃) : SeenLe h₁ h₃ := fun x hx => b x (a x hx)

/-- the heaps have the same pointers -/
structure SamePtr (h h' : Heap D) : Prop where
  size : h'.size = h.size
  fa : ∀ x, (h'.get x).fa = (h.get x).fa
  ch : ∀ x d, LNode.ch (h'.get x) d = LNode.ch (h.get x) d
  mn : ∀ x, (h'.get x).minP = (h.get x).minP

theorem SamePtr.refl (h : Heap D) : SamePtr h h := ⟨rfl, fun _ => rfl, fun _ _ => rfl, fun _ => rfl⟩

theorem SamePtr.trans {h₁ h₂ h₃ : Heap D} (a : SamePtr h₁ h₂) (b : SamePtr h₂ h₃) : SamePtr h₁ h₃ :=
  ⟨b.size.trans a.size, fun x => (b.fa x).trans (a.fa x), fun x d => (b.ch x d).trans (a.ch x d), fun x => (b.mn x).trans (a.mn x)⟩

theorem SamePtr.ok {N : Nat} {h h' : Heap D} (s : SamePtr h h') (o : PtrOk N h) : PtrOk N h' where
  size := s.size.trans o.size
  fa x f hx hf := o.fa x f hx (by rw [← s.fa]; exact hf)
  ch x d c hx hc := by
    rw [s.mn]
    exact o.ch x d c hx (by rw [← s.ch]; exact hc)
  mn x m hx hm := o.mn x m hx (by rw [← s.mn]; exact hm)

theorem SamePtr.seen {h h' : Heap D} (s : SamePtr h h') : SeenLe h h' := fun x hx => by rw [s.mn]; exact hx

theorem ch_setCh (n : LNode D) (d d' : Bool) (p : Option Nat) : LNode.ch (LNode.setCh n d p) d' = if d' = d then p else LNode.ch n d' := by
  cases d <;> cases d' <;> rfl

theorem fa_setCh (n : LNode D) (d : Bool) (p : Option Nat) : (LNode.setCh n d p).fa = n.fa := by cases d <;> rfl

theorem minP_setCh (n : LNode D) (d : Bool) (p : Option Nat) : (LNode.setCh n d p).minP = n.minP := by cases d <;> rfl

theorem setc_spec (h : Heap D) (x : Nat) (p : Option Nat) (d : Bool) (hx : x < h.size) (hp : ∀ c, p = some c → c < h.size) :
    ∃ h', setc h x p d = .ok h' ∧ h'.size = h.size ∧
      (∀ z, (h'.get z).fa = if p = some z then some x else (h.get z).fa) ∧
      (∀ z d', LNode.ch (h'.get z) d' = if z = x ∧ d' = d then p else LNode.ch (h.get z) d') ∧
      (∀ z, (h'.get z).minP = (h.get z).minP) := by
  unfold setc
  rw [Vec.rd, if_pos hx]
  show ∃ h', (h.wr x (LNode.setCh (h.get x) d p) >>= _) = .ok h' ∧ _
  rw [Vec.wr, if_pos hx]
  cases p with
  | none =>
    refine ⟨_, rfl, rfl, fun z => ?_, fun z d' => ?_, fun z => ?_⟩
    · rw [Vec.set_get']
      split
      · next e => rw [e]; simp [fa_setCh]
      · simp
    · rw [Vec.set_get']
      split
      · next e => rw [e, ch_setCh]; simp
      · next e => simp [e]
    · rw [Vec.set_get']
      split
      · next e => rw [e, minP_setCh]
      · rfl
  | some c =>
    have hc := hp c rfl
    show ∃ h', ((h.set x _).rd c >>= _) = .ok h' ∧ _
    rw [Vec.rd, if_pos (show c < (h.set x _).size from hc)]
    show ∃ h', (Vec.wr _ c _) = .ok h' ∧ _
    rw [Vec.wr, if_pos (show c < (h.set x _).size from hc)]
    refine ⟨_, rfl, rfl, fun z => ?_, fun z d' => ?_, fun z => ?_⟩
    · rw [Vec.set_get']
      split
      · next e => simp [e]
      · next e =>
        rw [if_neg (by intro e'; exact e (Option.some.inj e').symm), Vec.set_get']
        split
        · next e => rw [e, fa_setCh]
        · rfl
    · rw [Vec.set_get']
      have key : LNode.ch ((h.set x (LNode.setCh (h.get x) d (some c))).get z) d' =
          if z = x ∧ d' = d then some c else LNode.ch (h.get z) d' := by
        rw [Vec.set_get']
        split
        · next e => rw [e, ch_setCh]; simp
        · next e => simp [e]
      split
      · next e =>
        rw [← key, e]
        cases d' <;> rfl
      · exact key
    · rw [Vec.set_get']
      have key : ((h.set x (LNode.setCh (h.get x) d (some c))).get z).minP = (h.get z).minP := by
        rw [Vec.set_get']
        split
        · next e => rw [e, minP_setCh]
        · rfl
      split
      · next e => rw [← key, e]
      · exact key

theorem dir_ok (h : Heap D) (x f : Nat) (hx : x < h.size) (hf : (h.get x).fa = some f) (hfs : f < h.size) : ∃ b, dir h x = .ok b := by
  refine ⟨decide ((h.get f).ch1 = some x), ?_⟩
  unfold dir
  rw [Vec.rd, if_pos hx]
  show (deref (h.get x).fa >>= _) = _
  rw [hf]
  show (h.rd f >>= _) = _
  rw [Vec.rd, if_pos hfs]
  rfl

theorem isRoot_spec (h : Heap D) (x : Nat) (hx : x < h.size) (hf : ∀ f, (h.get x).fa = some f → f < h.size) :
    ∃ b, isRoot h x = .ok b ∧ (b = false → ∃ f d, (h.get x).fa = some f ∧ LNode.ch (h.get f) d = some x) := by
  unfold isRoot
  rw [Vec.rd, if_pos hx]
  show ∃ b, (match (h.get x).fa with | none => Except.ok true | some f => _) = Except.ok b ∧ _
  cases hfa : (h.get x).fa with
  | none => exact ⟨true, rfl, fun e => absurd e (by decide)⟩
  | some f =>
    show ∃ b, (h.rd f >>= _) = .ok b ∧ _
    rw [Vec.rd, if_pos (hf f hfa)]
    refine ⟨_, rfl, fun e => ⟨f, ?_⟩⟩
    by_cases h0 : (h.get f).ch0 = some x
    · exact ⟨false, rfl, h0⟩
    · by_cases h1 : (h.get f).ch1 = some x
      · exact ⟨true, rfl, h1⟩
      · simp [h0, h1] at e

section
variable [LT D] [LE D] [DecidableLT D] [DecidableLE D]

/-- `push_up` reads the children only. -/
theorem pushUp_spec (h : Heap D) (x : Nat) (hx : x < h.size) (hc : ∀ d c, LNode.ch (h.get x) d = some c → c < h.size) :
    ∃ h' m, pushUp h x = .ok h' ∧ h'.size = h.size ∧ (∀ z, (h'.get z).fa = (h.get z).fa) ∧ (∀ z d, LNode.ch (h'.get z) d = LNode.ch (h.get z) d) ∧
      (∀ z, (h'.get z).minP = if z = x then m else (h.get z).minP) ∧
      (m = some x ∨ ∃ d c, LNode.ch (h.get x) d = some c ∧ m = (h.get c).minP) := by
  have fin : ∀ m2 : D × Option Nat, (m2.2 = some x ∨ ∃ d c, LNode.ch (h.get x) d = some c ∧ m2.2 = (h.get c).minP) →
      ∃ h' m, h.wr x { h.get x with minV := m2.1, minP := m2.2 } = .ok h' ∧ h'.size = h.size ∧ (∀ z, (h'.get z).fa = (h.get z).fa) ∧
      (∀ z d, LNode.ch (h'.get z) d = LNode.ch (h.get z) d) ∧
      (∀ z, (h'.get z).minP = if z = x then m else (h.get z).minP) ∧
      (m = some x ∨ ∃ d c, LNode.ch (h.get x) d = some c ∧ m = (h.get c).minP) := by
    intro m2 p2
    refine ⟨h.set x { h.get x with minV := m2.1, minP := m2.2 }, m2.2, by rw [Vec.wr, if_pos hx], rfl, fun z => ?_, fun z d => ?_, fun z => ?_, p2⟩
    · rw [Vec.set_get']
      split
      · next e => rw [e]
      · rfl
    · rw [Vec.set_get']
      split
      · next e => rw [e]; cases d <;> rfl
      · rfl
    · rw [Vec.set_get']
      split <;> rfl
  have snd : ∀ m1 : D × Option Nat, (m1.2 = some x ∨ ∃ d c, LNode.ch (h.get x) d = some c ∧ m1.2 = (h.get c).minP) →
      ∃ h' m, (match (h.get x).ch1 with
        | none => h.wr x { h.get x with minV := m1.1, minP := m1.2 }
        | some c => do
          let nc ← h.rd c
          h.wr x { h.get x with
            minV := (if nc.minV < m1.1 then (nc.minV, nc.minP) else m1).1
            minP := (if nc.minV < m1.1 then (nc.minV, nc.minP) else m1).2 }) = .ok h' ∧
      h'.size = h.size ∧ (∀ z, (h'.get z).fa = (h.get z).fa) ∧ (∀ z d, LNode.ch (h'.get z) d = LNode.ch (h.get z) d) ∧
      (∀ z, (h'.get z).minP = if z = x then m else (h.get z).minP) ∧
      (m = some x ∨ ∃ d c, LNode.ch (h.get x) d = some c ∧ m = (h.get c).minP) := by
    intro m1 p1
    cases hc1 : (h.get x).ch1 with
    | none => exact fin m1 p1
    | some c =>
      show ∃ h' m, (h.rd c >>= _) = .ok h' ∧ _
      rw [Vec.rd, if_pos (hc true c hc1)]
      have := fin (if (h.get c).minV < m1.1 then ((h.get c).minV, (h.get c).minP) else m1) (by
        split
        · exact .inr ⟨true, c, hc1, rfl⟩
        · exact p1)
      exact this
  unfold pushUp
  rw [Vec.rd, if_pos hx]
  cases hc0 : (h.get x).ch0 with
  | none =>
    have := snd ((h.get x).val, some x) (.inl rfl)
    simp only [Except.bind_ok', hc0] at this ⊢
    exact this
  | some c =>
    have := snd (if (h.get c).minV ≤ (h.get x).val then ((h.get c).minV, (h.get c).minP) else ((h.get x).val, some x)) (by
      split
      · exact .inr ⟨false, c, hc0, rfl⟩
      · exact .inl rfl)
    have e : h.rd c = .ok (h.get c) := by rw [Vec.rd, if_pos (hc false c hc0)]
    simp only [Except.bind_ok', hc0, e] at this ⊢
    exact this

theorem pushUp_ok {N : Nat} {h : Heap D} (o : PtrOk N h) {x : Nat} (hx : x < N) :
    ∃ h', pushUp h x = .ok h' ∧ PtrOk N h' ∧ SeenLe h h' ∧ (h'.get x).minP ≠ none ∧ (∀ z, (h'.get z).fa = (h.get z).fa) ∧
      (∀ z d, LNode.ch (h'.get z) d = LNode.ch (h.get z) d) := by
  obtain ⟨h', m, e, hs, hfa, hch, hmn, hm⟩ := pushUp_spec h x (o.size ▸ hx) fun d c hc => o.size ▸ (o.ch x d c hx hc).1
  have hm' : m ≠ none := by
    rcases hm with rfl | ⟨d, c, hc, rfl⟩
    · exact Option.some_ne_none _
    · exact (o.ch x d c hx hc).2
  have seen : SeenLe h h' := fun z hz => by
    rw [hmn]
    split
    · exact hm'
    · exact hz
  refine ⟨h', e, ⟨hs.trans o.size, fun z f hz hf => o.fa z f hz (by rw [← hfa]; exact hf), fun z d c hz hc => ?_, fun z k hz hk => ?_⟩, seen, ?_, hfa, hch⟩
  · rw [hch] at hc
    exact ⟨(o.ch z d c hz hc).1, seen c (o.ch z d c hz hc).2⟩
  · rw [hmn] at hk
    split at hk
    · rcases hm with rfl | ⟨d, c, hc, rfl⟩
      · exact Option.some.inj hk ▸ hx
      · exact o.mn c k (o.ch x d c hx hc).1 hk
    · exact o.mn z k hz hk
  · rw [hmn, if_pos rfl]
    exact hm'

/-- `rot` at a node with a father -/
theorem rot_ok {N : Nat} {h : Heap D} (o : PtrOk N h) {x f : Nat} (hx : x < N) (hf : (h.get x).fa = some f) (hs : (h.get x).minP ≠ none) :
    ∃ h', rot h x = .ok h' ∧ PtrOk N h' ∧ SeenLe h h' ∧ (h'.get x).fa = (h.get f).fa ∧ (∀ z, z ≠ x → (h.get z).fa ≠ none → (h'.get z).fa ≠ none) := by
  have hfN := o.fa x f hx hf
  have xs : x < h.size := o.size.symm ▸ hx
  have fs : f < h.size := o.size.symm ▸ hfN
  obtain ⟨c, hc⟩ := dir_ok h x f xs hf fs
  have hcc : ∃ cc, (match (h.get f).fa with
      | none => (Except.ok false : Res Bool)
      | some _ => dir h f) = .ok cc := by
    cases hg : (h.get f).fa with
    | none => exact ⟨_, rfl⟩
    | some g => exact dir_ok h f g fs hg (o.size.symm ▸ o.fa f g hfN hg)
  obtain ⟨cc, hcc⟩ := hcc
  obtain ⟨h1, e1, s1, fa1, ch1, mn1⟩ := setc_spec h f (LNode.ch (h.get x) (!c)) c fs fun k hk => o.size.symm ▸ (o.ch x _ k hx hk).1
  obtain ⟨h2, e2, s2, fa2, ch2, mn2⟩ := setc_spec h1 x (some f) (!c) (s1 ▸ xs) fun k hk => Option.some.inj hk ▸ s1 ▸ fs
  -- the third write
  have h3 : ∃ h3, (match (h.get f).fa with
      | none => do
        let n ← h2.rd x
        h2.wr x { n with fa := none }
      | some g => do
        let ng ← h2.rd g
        if LNode.ch ng cc = some f then setc h2 g (some x) cc
        else do
          let n ← h2.rd x
          h2.wr x { n with fa := some g }) = .ok h3 ∧ h3.size = h.size ∧
      (∀ z, (h3.get z).fa = if z = x then (h.get f).fa else (h2.get z).fa) ∧
      (∀ z d' k, LNode.ch (h3.get z) d' = some k → k = x ∨ LNode.ch (h2.get z) d' = some k) ∧
      (∀ z, (h3.get z).minP = (h2.get z).minP) := by
    have xs2 : x < h2.size := s2 ▸ s1 ▸ xs
    have W : ∀ p : Option Nat, (do
          let n ← h2.rd x
          h2.wr x { n with fa := p }) = .ok (h2.set x { h2.get x with fa := p }) ∧ (h2.set x { h2.get x with fa := p }).size = h.size ∧
        (∀ z, ((h2.set x { h2.get x with fa := p }).get z).fa = if z = x then p else (h2.get z).fa) ∧
        (∀ z d' k, LNode.ch ((h2.set x { h2.get x with fa := p }).get z) d' = some k → k = x ∨ LNode.ch (h2.get z) d' = some k) ∧
        (∀ z, ((h2.set x { h2.get x with fa := p }).get z).minP = (h2.get z).minP) := by
      intro p
      refine ⟨?_, by show h2.size = _; rw [s2, s1], fun z => ?_, fun z d' k hk => .inr ?_, fun z => ?_⟩
      · rw [Vec.rd, if_pos xs2]
        show Vec.wr _ _ _ = _
        rw [Vec.wr, if_pos xs2]
      · rw [Vec.set_get']; split <;> rfl
      · rw [Vec.set_get'] at hk
        split at hk
        · next e => rw [e]; cases d' <;> exact hk
        · exact hk
      · rw [Vec.set_get']
        split
        · next e => rw [e]
        · rfl
    cases hg : (h.get f).fa with
    | none => exact ⟨_, W none⟩
    | some g =>
      have gs : g < h2.size := s2 ▸ s1 ▸ o.size.symm ▸ o.fa f g hfN hg
      show ∃ h3, (h2.rd g >>= _) = .ok h3 ∧ _
      rw [Vec.rd, if_pos gs]
      show ∃ h3, (if LNode.ch (h2.get g) cc = some f then _ else _) = Except.ok h3 ∧ _
      split
      · obtain ⟨h3, e3, s3, fa3, ch3, mn3⟩ := setc_spec h2 g (some x) cc gs fun k hk => Option.some.inj hk ▸ xs2
        refine ⟨h3, e3, by rw [s3, s2, s1], fun z => ?_, fun z d' k hk => ?_, mn3⟩
        · rw [fa3]
          by_cases hz : z = x
          · rw [if_pos (by rw [hz]), if_pos hz]
          · rw [if_neg (by intro e; exact hz (Option.some.inj e).symm), if_neg hz]
        · rw [ch3] at hk
          split at hk
          · exact .inl (Option.some.inj hk).symm
          · exact .inr hk
      · exact ⟨_, W (some g)⟩
  obtain ⟨h3, e3, s3, fa3, ch3, mn3⟩ := h3
  -- children in `h3`
  have M3 : ∀ z, (h3.get z).minP = (h.get z).minP := fun z => by rw [mn3, mn2, mn1]
  have kids : ∀ z d' k, z < N → LNode.ch (h3.get z) d' = some k → k < N ∧ ((h.get k).minP ≠ none ∨ (z = x ∧ k = f)) := by
    intro z d' k hz hk
    rcases ch3 z d' k hk with rfl | hk
    · exact ⟨hx, .inl hs⟩
    rw [ch2] at hk
    split at hk
    · next hh => obtain rfl := Option.some.inj hk; exact ⟨hfN, .inr ⟨hh.1, rfl⟩⟩
    rw [ch1] at hk
    split at hk
    · exact ⟨(o.ch x _ k hx hk).1, .inl (o.ch x _ k hx hk).2⟩
    · exact ⟨(o.ch z _ k hz hk).1, .inl (o.ch z _ k hz hk).2⟩
  have kidf : ∀ d' k, LNode.ch (h3.get f) d' = some k → (h.get k).minP ≠ none := by
    intro d' k hk
    rcases (kids f d' k hfN hk).2 with h | ⟨h, rfl⟩
    · exact h
    · rw [h]; exact hs
  obtain ⟨h4, m, e4, s4, fa4, ch4, mn4, hm⟩ := pushUp_spec h3 f (s3.symm ▸ fs) fun d k hk => s3.symm ▸ o.size.symm ▸ (kids f d k hfN hk).1
  have hm' : m ≠ none := by
    rcases hm with rfl | ⟨d, k, hk, rfl⟩
    · exact Option.some_ne_none _
    · rw [M3]; exact kidf d k hk
  have seen : SeenLe h h4 := fun z hz => by
    rw [mn4]
    split
    · exact hm'
    · rw [M3]; exact hz
  have seenf : (h4.get f).minP ≠ none := by rw [mn4, if_pos rfl]; exact hm'
  have faf : ∀ z, z < N → ∀ k, (h4.get z).fa = some k → k < N := by
    intro z hz k hk
    rw [fa4, fa3] at hk
    split at hk
    · exact o.fa f k hfN hk
    rw [fa2] at hk
    split at hk
    · exact Option.some.inj hk ▸ hx
    rw [fa1] at hk
    split at hk
    · exact Option.some.inj hk ▸ hfN
    · exact o.fa z k hz hk
  refine ⟨h4, ?_, ⟨s4.trans (s3.trans o.size), fun z k hz hk => faf z hz k hk, fun z d k hz hk => ?_, fun z k hz hk => ?_⟩, seen, ?_, ?_⟩
  · unfold rot
    rw [Vec.rd, if_pos xs]
    show (deref (h.get x).fa >>= _) = _
    rw [hf]
    show (h.rd f >>= _) = _
    rw [Vec.rd, if_pos fs]
    show (dir h x >>= _) = _
    rw [hc]
    cases hg : (h.get f).fa with
    | none =>
      rw [hg] at hcc e3
      obtain rfl : false = cc := Except.ok.inj hcc
      simp only [Except.bind_ok', e1, e2]
      simp only at e3
      rw [← bind_assoc, e3]
      exact e4
    | some g =>
      rw [hg] at hcc e3
      simp only at hcc e3
      simp only [Except.bind_ok', hcc, e1, e2]
      cases hr : h2.rd g with
      | error e => rw [hr] at e3; cases e3
      | ok ng =>
        rw [hr] at e3
        simp only [Except.bind_ok'] at e3 ⊢
        split
        · next hh =>
          rw [if_pos hh] at e3
          rw [e3]
          exact e4
        · next hh =>
          rw [if_neg hh] at e3
          rw [← bind_assoc, e3]
          exact e4
  · rw [ch4] at hk
    obtain ⟨h1, h2⟩ := kids z d k hz hk
    refine ⟨h1, ?_⟩
    rcases h2 with h2 | ⟨_, rfl⟩
    · exact seen k h2
    · exact seenf
  · rw [mn4] at hk
    split at hk
    · rcases hm with rfl | ⟨d, y, hy, rfl⟩
      · exact Option.some.inj hk ▸ hfN
      · rw [M3] at hk
        exact o.mn y k (kids f d y hfN hy).1 hk
    · rw [M3] at hk
      exact o.mn z k hz hk
  · rw [fa4, fa3, if_pos rfl]
  · intro z hz hne
    rw [fa4, fa3, if_neg hz, fa2]
    split
    · exact Option.some_ne_none _
    rw [fa1]
    split
    · exact Option.some_ne_none _
    · exact hne

end

section
variable [Add D]

theorem updateAdd_same (h : Heap D) (x : Nat) (w : D) (hx : x < h.size) : ∃ h', updateAdd h x w = .ok h' ∧ SamePtr h h' := by
  refine ⟨h.set x { h.get x with val := (h.get x).val + w, add := (h.get x).add + w, minV := (h.get x).minV + w }, ?_, rfl, fun z => ?_, fun z d => ?_,
    fun z => ?_⟩
  · unfold updateAdd
    rw [Vec.rd, if_pos hx]
    show Vec.wr _ _ _ = _
    rw [Vec.wr, if_pos hx]
  · rw [Vec.set_get']; split
    · next e => rw [e]
    · rfl
  · rw [Vec.set_get']; split
    · next e => rw [e]; cases d <;> rfl
    · rfl
  · rw [Vec.set_get']; split
    · next e => rw [e]
    · rfl

variable [Zero D] [BEq D]

theorem pushDown_same {N : Nat} {h : Heap D} (o : PtrOk N h) {x : Nat} (hx : x < N) : ∃ h', pushDown h x = .ok h' ∧ SamePtr h h' := by
  have xs : x < h.size := o.size.symm ▸ hx
  have U : ∀ (h' : Heap D) (w : D) (p : Option Nat), (∀ c, p = some c → c < h'.size) → ∃ h'', (match p with
      | none => (Except.ok h' : Res (Heap D))
      | some c => updateAdd h' c w) = .ok h'' ∧ SamePtr h' h'' := by
    intro h' w p hp
    cases p with
    | none => exact ⟨h', rfl, .refl _⟩
    | some c => exact updateAdd_same h' c w (hp c rfl)
  unfold pushDown
  rw [Vec.rd, if_pos xs]
  simp only [Except.bind_ok']
  split
  · obtain ⟨h1, e1, s1⟩ := U h (h.get x).add (h.get x).ch0 fun c hc => o.size.symm ▸ (o.ch x false c hx hc).1
    obtain ⟨h2, e2, s2⟩ := U h1 (h.get x).add (h.get x).ch1 fun c hc => s1.size.symm ▸ o.size.symm ▸ (o.ch x true c hx hc).1
    refine ⟨h2.set x { h2.get x with add := 0 }, ?_, (s1.trans s2).trans ⟨rfl, fun z => ?_, fun z d => ?_, fun z => ?_⟩⟩
    · have xs2 : x < h2.size := s2.size.symm ▸ s1.size.symm ▸ xs
      have fin : (h2.rd x >>= fun n => h2.wr x { n with add := 0 }) = .ok (h2.set x { h2.get x with add := 0 }) := by
        rw [Vec.rd, if_pos xs2]
        show Vec.wr _ _ _ = _
        rw [Vec.wr, if_pos xs2]
      cases hc0 : (h.get x).ch0 <;> cases hc1 : (h.get x).ch1 <;> rw [hc0] at e1 <;> rw [hc1] at e2 <;> simp only at e1 e2 <;>
        simp only [Except.bind_ok', e1, e2]
      · cases e1; cases e2; exact fin
      · cases e1; rw [e2]; exact fin
      · cases e2; exact fin
      · exact fin
    · rw [Vec.set_get']; split
      · next e => rw [e]
      · rfl
    · rw [Vec.set_get']; split
      · next e => rw [e]; cases d <;> rfl
      · rfl
    · rw [Vec.set_get']; split
      · next e => rw [e]
      · rfl
  · exact ⟨h, rfl, .refl _⟩

omit [Add D] [Zero D] [BEq D] in
theorem isRoot_ok {N : Nat} {h : Heap D} (o : PtrOk N h) {x : Nat} (hx : x < N) :
    ∃ b, isRoot h x = .ok b ∧ (b = false → ∃ f, (h.get x).fa = some f ∧ f < N ∧ (h.get x).minP ≠ none) := by
  obtain ⟨b, e, hb⟩ := isRoot_spec h x (o.size.symm ▸ hx) fun f hf => o.size.symm ▸ o.fa x f hx hf
  refine ⟨b, e, fun h' => ?_⟩
  obtain ⟨f, d, h1, h2⟩ := hb h'
  exact ⟨f, h1, o.fa x f hx h1, (o.ch f d x (o.fa x f hx h1) h2).2⟩

theorem pushDownFromRoot_safe {N : Nat} : ∀ (fuel : Nat) {h : Heap D}, PtrOk N h → ∀ {x : Nat}, x < N →
    Safe (pushDownFromRoot fuel h x) (fun h' => SamePtr h h')
  | 0, _, _, _, _ => .fuel
  | fuel + 1, h, o, x, hx => by
    unfold pushDownFromRoot
    obtain ⟨b, e, hb⟩ := isRoot_ok o hx
    rw [e]
    have fin : ∀ h', SamePtr h h' → Safe (pushDown h' x) (fun h' => SamePtr h h') := by
      intro h' hs
      obtain ⟨h'', e', s'⟩ := pushDown_same (hs.ok o) hx
      rw [e']
      exact hs.trans s'
    cases b with
    | true => exact fin h (.refl h)
    | false =>
      obtain ⟨f, hf, hfN, _⟩ := hb rfl
      show Safe (h.rd x >>= _) _
      rw [Vec.rd, if_pos (o.size.symm ▸ hx)]
      show Safe (deref (h.get x).fa >>= _) _
      rw [hf]
      exact (pushDownFromRoot_safe fuel o hfN).bind fin

variable [LT D] [LE D] [DecidableLT D] [DecidableLE D]

omit [Add D] [Zero D] [BEq D] in
theorem splayStep_ok {N : Nat} {h : Heap D} (o : PtrOk N h) {x f : Nat} (hx : x < N) (hf : (h.get x).fa = some f) (hs : (h.get x).minP ≠ none) :
    ∃ h', splayStep h x = .ok h' ∧ PtrOk N h' ∧ SeenLe h h' := by
  have hfN := o.fa x f hx hf
  have xs : x < h.size := o.size.symm ▸ hx
  obtain ⟨b, e, hb⟩ := isRoot_ok o hfN
  unfold splayStep
  rw [Vec.rd, if_pos xs]
  show ∃ h', (deref (h.get x).fa >>= _) = .ok h' ∧ _
  rw [hf]
  show ∃ h', (isRoot h f >>= _) = .ok h' ∧ _
  rw [e]
  cases b with
  | true =>
    obtain ⟨h', e', o', s', _⟩ := rot_ok o hx hf hs
    exact ⟨h', e', o', s'⟩
  | false =>
    obtain ⟨g, hg, hgN, hfs⟩ := hb rfl
    obtain ⟨dx, ex⟩ := dir_ok h x f xs hf (o.size.symm ▸ hfN)
    obtain ⟨df, ef⟩ := dir_ok h f g (o.size.symm ▸ hfN) hg (o.size.symm ▸ hgN)
    show ∃ h', (dir h x >>= _) = .ok h' ∧ _
    rw [ex]
    show ∃ h', (dir h f >>= _) = .ok h' ∧ _
    rw [ef]
    simp only [Except.bind_ok']
    have fin : ∀ h1 : Heap D, PtrOk N h1 → SeenLe h h1 → (h1.get x).fa ≠ none → ∃ h', rot h1 x = .ok h' ∧ PtrOk N h' ∧ SeenLe h h' := by
      intro h1 o1 s1 hne
      obtain ⟨f', hf'⟩ := Option.ne_none_iff_exists'.mp hne
      obtain ⟨h', e', o', s', _⟩ := rot_ok o1 hx hf' (s1 x hs)
      exact ⟨h', e', o', s1.trans s'⟩
    split
    · obtain ⟨h1, e1, o1, s1, p1, p2⟩ := rot_ok o hfN hg hfs
      rw [e1]
      refine fin h1 o1 s1 ?_
      by_cases hxf : x = f
      · subst hxf
        obtain rfl : x = g := Option.some.inj (hf.symm.trans hg)
        rw [p1, hf]
        exact Option.some_ne_none _
      · exact p2 x hxf (by rw [hf]; exact Option.some_ne_none _)
    · obtain ⟨h1, e1, o1, s1, p1, p2⟩ := rot_ok o hx hf hs
      rw [e1]
      refine fin h1 o1 s1 ?_
      rw [p1, hg]
      exact Option.some_ne_none _

theorem splay_safe {N : Nat} (fuel : Nat) {h : Heap D} (o : PtrOk N h) {x : Nat} (hx : x < N) :
    Safe (splay fuel h x) (fun h' => PtrOk N h' ∧ SeenLe h h' ∧ (h'.get x).minP ≠ none) := by
  unfold splay
  refine (pushDownFromRoot_safe fuel o hx).bind fun h1 s1 => ?_
  refine Safe.bind (P := fun h' => PtrOk N h' ∧ SeenLe h h') (Safe.whileLoop ?_ ?_ fuel h1 ⟨s1.ok o, s1.seen⟩) fun h2 ⟨o2, s2⟩ => ?_
  · rintro h' ⟨o', _⟩
    obtain ⟨b, e, _⟩ := isRoot_ok o' hx
    rw [e]
    exact trivial
  · rintro h' ⟨o', s'⟩ hc
    obtain ⟨b, e, hb⟩ := isRoot_ok o' hx
    rw [e] at hc
    have : b = false := by
      cases b with
      | false => rfl
      | true => cases hc
    obtain ⟨f, hf, _, hs⟩ := hb this
    obtain ⟨h'', e'', o'', s''⟩ := splayStep_ok o' hx hf hs
    rw [e'']
    exact ⟨o'', s'.trans s''⟩
  · obtain ⟨h3, e3, o3, s3, p3, _⟩ := pushUp_ok o2 hx
    rw [e3]
    exact ⟨o3, s2.trans s3, p3⟩

omit [Add D] [Zero D] [BEq D] [LT D] [LE D] [DecidableLT D] [DecidableLE D] in
/-- `setc` with a child whose `min` is known -/
theorem setc_ok {N : Nat} {h : Heap D} (o : PtrOk N h) {x : Nat} (hx : x < N) {p : Option Nat} (d : Bool)
    (hp : ∀ c, p = some c → c < N ∧ (h.get c).minP ≠ none) : ∃ h', setc h x p d = .ok h' ∧ PtrOk N h' ∧ SeenLe h h' := by
  obtain ⟨h', e, s, fa, ch, mn⟩ := setc_spec h x p d (o.size.symm ▸ hx) fun c hc => o.size.symm ▸ (hp c hc).1
  refine ⟨h', e, ⟨s.trans o.size, fun z f hz hf => ?_, fun z d' c hz hc => ?_, fun z m hz hm => ?_⟩, fun z hz => by rw [mn]; exact hz⟩
  · rw [fa] at hf
    split at hf
    · exact Option.some.inj hf ▸ hx
    · exact o.fa z f hz hf
  · rw [mn]
    rw [ch] at hc
    split at hc
    · exact hp c hc
    · exact o.ch z d' c hz hc
  · rw [mn] at hm
    exact o.mn z m hz hm

theorem accessLoop_safe {N : Nat} (fuel0 : Nat) : ∀ (fuel : Nat) {h : Heap D}, PtrOk N h → ∀ {p q : Option Nat}, (∀ c, p = some c → c < N) →
    (∀ c, q = some c → c < N ∧ (h.get c).minP ≠ none) → Safe (accessLoop fuel0 fuel h p q) (fun h' => PtrOk N h' ∧ SeenLe h h')
  | 0, _, _, _, _, _, _ => .fuel
  | fuel + 1, h, o, none, q, _, _ => ⟨o, .refl h⟩
  | fuel + 1, h, o, some p, q, hp, hq => by
    have hpN := hp p rfl
    unfold accessLoop
    refine (splay_safe fuel0 o hpN).bind fun h1 ⟨o1, s1, p1⟩ => ?_
    obtain ⟨h2, e2, o2, s2⟩ := setc_ok o1 hpN (p := q) true fun c hc => ⟨(hq c hc).1, s1 c (hq c hc).2⟩
    rw [e2]
    show Safe (pushUp h2 p >>= _) _
    obtain ⟨h3, e3, o3, s3, p3, _⟩ := pushUp_ok o2 hpN
    rw [e3]
    show Safe (h3.rd p >>= _) _
    rw [Vec.rd, if_pos (o3.size.symm ▸ hpN)]
    show Safe (accessLoop fuel0 fuel h3 (h3.get p).fa (some p)) _
    exact (accessLoop_safe fuel0 fuel o3 (fun c hc => o3.fa p c hpN hc) fun c hc => by obtain rfl := Option.some.inj hc; exact ⟨hpN, p3⟩).mono
      fun h' ⟨a, b⟩ => ⟨a, ((s1.trans s2).trans s3).trans b⟩

theorem access_safe {N : Nat} (fuel : Nat) {h : Heap D} (o : PtrOk N h) {x : Nat} (hx : x < N) :
    Safe (access fuel h x) (fun h' => PtrOk N h' ∧ SeenLe h h' ∧ (h'.get x).minP ≠ none) := by
  unfold access
  refine (accessLoop_safe fuel fuel o (fun c hc => Option.some.inj hc ▸ hx) (fun c hc => by cases hc)).bind fun h1 ⟨o1, s1⟩ => ?_
  exact (splay_safe fuel o1 hx).mono fun h' ⟨a, b, c⟩ => ⟨a, s1.trans b, c⟩

omit [Add D] [Zero D] [BEq D] [LT D] [LE D] [DecidableLT D] [DecidableLE D] in
theorem leftmost_safe {N : Nat} {h : Heap D} (o : PtrOk N h) : ∀ (fuel x : Nat), x < N → Safe (leftmost h fuel x) (fun r => r < N)
  | 0, _, _ => .fuel
  | fuel + 1, x, hx => by
    unfold leftmost
    rw [Vec.rd, if_pos (o.size.symm ▸ hx)]
    show Safe (match (h.get x).ch0 with | none => Except.ok x | some c => leftmost h fuel c) _
    cases hc : (h.get x).ch0 with
    | none => exact hx
    | some c => exact leftmost_safe o fuel c (o.ch x false c hx hc).1

theorem findRoot_safe {N : Nat} (fuel : Nat) {h : Heap D} (o : PtrOk N h) {x : Nat} (hx : x < N) :
    Safe (findRoot fuel h x) (fun r => r.1 < N ∧ PtrOk N r.2) := by
  unfold findRoot
  refine (access_safe fuel o hx).bind fun h1 ⟨o1, _⟩ => (leftmost_safe o1 fuel x hx).bind fun r hr => ⟨hr, o1⟩

omit [Add D] [Zero D] [BEq D] [LT D] [LE D] [DecidableLT D] [DecidableLE D] in
/-- a change of the father of a node -/
theorem setFaField_ok {N : Nat} {h : Heap D} (o : PtrOk N h) (x : Nat) (p : Option Nat) (hp : ∀ c, p = some c → c < N) :
    PtrOk N (h.set x { h.get x with fa := p }) where
  size := o.size
  fa z f hz hf := by
    rw [Vec.set_get'] at hf
    split at hf
    · exact hp f hf
    · exact o.fa z f hz hf
  ch z d c hz hc := by
    have hc' : LNode.ch (h.get z) d = some c := by
      rw [Vec.set_get'] at hc
      split at hc
      · next e => rw [e]; cases d <;> exact hc
      · exact hc
    refine ⟨(o.ch z d c hz hc').1, ?_⟩
    rw [Vec.set_get']
    split
    · next e => exact e ▸ (o.ch z d c hz hc').2
    · exact (o.ch z d c hz hc').2
  mn z m hz hm := by
    rw [Vec.set_get'] at hm
    split at hm
    · next e => exact o.mn x m (e ▸ hz) hm
    · exact o.mn z m hz hm

theorem setFa_safe {N : Nat} (fuel : Nat) {h : Heap D} (o : PtrOk N h) {x f : Nat} (hx : x < N) (hf : f < N) :
    Safe (setFa fuel h x f) (fun h' => PtrOk N h') := by
  unfold setFa
  refine (splay_safe fuel o hx).bind fun h1 ⟨o1, _⟩ => ?_
  have xs : x < h1.size := o1.size.symm ▸ hx
  rw [Vec.rd, if_pos xs]
  show Safe (if _ then _ else _) _
  split
  · rw [Vec.wr, if_pos xs]
    exact setFaField_ok o1 x (some f) fun c hc => Option.some.inj hc ▸ hf
  · exact .assertFail

theorem cut_safe {N : Nat} (fuel : Nat) {h : Heap D} (o : PtrOk N h) {x : Nat} (hx : x < N) :
    Safe (cut fuel h x) (fun h' => PtrOk N h') := by
  unfold cut
  refine (access_safe fuel o hx).bind fun h1 ⟨o1, _⟩ => ?_
  have xs : x < h1.size := o1.size.symm ▸ hx
  rw [Vec.rd, if_pos xs]
  show Safe (match (h1.get x).ch0 with | none => Except.error .assertFail | some c => _) _
  cases hc : (h1.get x).ch0 with
  | none => exact .assertFail
  | some c =>
    have hcN := (o1.ch x false c hx hc).1
    have cs : c < h1.size := o1.size.symm ▸ hcN
    show Safe (h1.rd c >>= _) _
    rw [Vec.rd, if_pos cs]
    show Safe (Vec.wr _ _ _ >>= _) _
    rw [Vec.wr, if_pos cs]
    have o2 := setFaField_ok o1 c none fun k hk => by cases hk
    generalize h1.set c { h1.get c with fa := none } = h2 at o2
    show Safe (h2.rd x >>= _) _
    have xs2 : x < h2.size := o2.size.symm ▸ hx
    rw [Vec.rd, if_pos xs2]
    show Safe (Vec.wr _ _ _ >>= _) _
    rw [Vec.wr, if_pos xs2]
    have o3 : PtrOk N (h2.set x { h2.get x with ch0 := none }) := by
      refine ⟨o2.size, fun z f hz hf => ?_, fun z d k hz hk => ?_, fun z m hz hm => ?_⟩
      · rw [Vec.set_get'] at hf
        split at hf
        · next e => exact o2.fa x f hx hf
        · exact o2.fa z f hz hf
      · have hk' : LNode.ch (h2.get z) d = some k := by
          rw [Vec.set_get'] at hk
          split at hk
          · next e =>
            rw [e]
            cases d with
            | false => cases hk
            | true => exact hk
          · exact hk
        refine ⟨(o2.ch z d k hz hk').1, ?_⟩
        rw [Vec.set_get']
        split
        · next e => exact e ▸ (o2.ch z d k hz hk').2
        · exact (o2.ch z d k hz hk').2
      · rw [Vec.set_get'] at hm
        split at hm
        · exact o2.mn x m hx hm
        · exact o2.mn z m hz hm
    obtain ⟨h4, e4, o4, _⟩ := pushUp_ok o3 hx
    show Safe (pushUp _ x) _
    rw [e4]
    exact o4

theorem getVal_safe {N : Nat} (fuel : Nat) {h : Heap D} (o : PtrOk N h) {x : Nat} (hx : x < N) :
    Safe (getVal fuel h x) (fun r => PtrOk N r.2) := by
  unfold getVal
  obtain ⟨b, e, _⟩ := isRoot_ok o hx
  have fin : ∀ h1 : Heap D, PtrOk N h1 → Safe (h1.rd x >>= fun n => (.ok (n.val, h1) : Res (D × Heap D))) (fun r => PtrOk N r.2) := by
    intro h1 o1
    rw [Vec.rd, if_pos (o1.size.symm ▸ hx)]
    exact o1
  rw [e]
  cases b with
  | true => exact fin h o
  | false => exact (access_safe fuel o hx).bind fun h' h => fin h' h.1

omit [LT D] [DecidableLT D] in
theorem getMinLoop_safe {N : Nat} : ∀ (fuel : Nat) {h : Heap D}, PtrOk N h → ∀ {p : Nat}, p < N → ∀ {ret : D × Option Nat},
    (∃ m, ret.2 = some m ∧ m < N) → Safe (getMinLoop fuel h p ret) (fun r => (∃ m, r.1.2 = some m ∧ m < N) ∧ PtrOk N r.2)
  | 0, _, _, _, _, _, _ => .fuel
  | fuel + 1, h, o, p, hp, ret, hr => by
    unfold getMinLoop
    obtain ⟨h1, e1, s1⟩ := pushDown_same o hp
    have o1 := s1.ok o
    rw [e1]
    show Safe (h1.rd p >>= _) _
    rw [Vec.rd, if_pos (o1.size.symm ▸ hp)]
    have fin : ∀ r : D × Option Nat, (∃ m, r.2 = some m ∧ m < N) → Safe (match (h1.get p).ch0 with
        | none => Except.ok (r, h1)
        | some c => getMinLoop fuel h1 c (if (h1.get p).val ≤ r.1 then ((h1.get p).val, some p) else r))
        (fun r => (∃ m, r.1.2 = some m ∧ m < N) ∧ PtrOk N r.2) := by
      intro r hr1
      cases hc : (h1.get p).ch0 with
      | none => exact ⟨hr1, o1⟩
      | some c =>
        refine getMinLoop_safe fuel o1 (o1.ch p false c hp hc).1 ?_
        split
        · exact ⟨p, rfl, hp⟩
        · exact hr1
    simp only [Except.bind_ok']
    cases hc : (h1.get p).ch1 with
    | none => exact fin ret hr
    | some c =>
      obtain ⟨hcN, hcs⟩ := o1.ch p true c hp hc
      have e : h1.rd c = .ok (h1.get c) := by rw [Vec.rd, if_pos (o1.size.symm ▸ hcN)]
      simp only [e, Except.bind_ok']
      refine fin _ ?_
      split
      · obtain ⟨m, hm⟩ := Option.ne_none_iff_exists'.mp hcs
        exact ⟨m, hm, o1.mn c m hcN hm⟩
      · exact hr

theorem getMin_safe {N : Nat} (fuel : Nat) {h : Heap D} (o : PtrOk N h) {x : Nat} (hx : x < N) :
    Safe (getMin fuel h x) (fun r => (∃ m, r.1.2 = some m ∧ m < N) ∧ PtrOk N r.2) := by
  unfold getMin
  refine (access_safe fuel o hx).bind fun h1 ⟨o1, _⟩ => ?_
  rw [Vec.rd, if_pos (o1.size.symm ▸ hx)]
  exact getMinLoop_safe fuel o1 hx ⟨x, rfl, hx⟩

theorem setVal_safe {N : Nat} (fuel : Nat) {h : Heap D} (o : PtrOk N h) {x : Nat} (hx : x < N) (v : D) :
    Safe (setVal fuel h x v) (fun h' => PtrOk N h') := by
  unfold setVal
  obtain ⟨b, e, _⟩ := isRoot_ok o hx
  have fin : ∀ h1 : Heap D, PtrOk N h1 → Safe (h1.rd x >>= fun n => h1.wr x { n with val := v } >>= fun h => pushUp h x) (fun h' => PtrOk N h') := by
    intro h1 o1
    have xs : x < h1.size := o1.size.symm ▸ hx
    rw [Vec.rd, if_pos xs]
    show Safe (Vec.wr _ _ _ >>= _) _
    rw [Vec.wr, if_pos xs]
    have s : SamePtr h1 (h1.set x { h1.get x with val := v }) := by
      refine ⟨rfl, fun z => ?_, fun z d => ?_, fun z => ?_⟩
      · rw [Vec.set_get']; split
        · next e => rw [e]
        · rfl
      · rw [Vec.set_get']; split
        · next e => rw [e]; cases d <;> rfl
        · rfl
      · rw [Vec.set_get']; split
        · next e => rw [e]
        · rfl
    obtain ⟨h4, e4, o4, _⟩ := pushUp_ok (s.ok o1) hx
    show Safe (pushUp _ x) _
    rw [e4]
    exact o4
  rw [e]
  cases b with
  | true => exact fin h o
  | false => exact (access_safe fuel o hx).bind fun h' h => fin h' h.1

theorem addValWayToRoot_safe {N : Nat} (fuel : Nat) {h : Heap D} (o : PtrOk N h) {x : Nat} (hx : x < N) (d : D) :
    Safe (addValWayToRoot fuel h x d) (fun h' => PtrOk N h') := by
  unfold addValWayToRoot
  refine (access_safe fuel o hx).bind fun h1 ⟨o1, _⟩ => ?_
  obtain ⟨h2, e2, s2⟩ := updateAdd_same h1 x d (o1.size.symm ▸ hx)
  rw [e2]
  exact s2.ok o1

omit [Add D] [BEq D] [LT D] [LE D] [DecidableLT D] [DecidableLE D] in
theorem init_ok (N : Nat) : PtrOk N (Vec.replicate N (initNode : LNode D)) where
  size := rfl
  fa _ _ _ h := by cases h
  ch _ d _ _ h := by cases d <;> cases h
  mn _ _ _ h := by cases h

end

end Mem
end LCT
end AHO
