import Verif.Proof.LCTRot
import Verif.Proof.Emb
import Mathlib.Algebra.BigOperators.Group.List.Basic
/-!
# Values in auxiliary splay trees; `push_up`, `push_down`, `splay`
-/

namespace AHO.LCT
open AHO T
set_option linter.unusedSectionVars false

variable {K : Type} [AddCommGroup K] [LinearOrder K] [IsOrderedAddMonoid K]

/-- first position of the minimum of `w` along a list -/
def fmin (w : Nat → K) : List Nat → Option Nat
  | [] => none
  | x :: xs =>
    match fmin w xs with
    | none => some x
    | some y => if w x ≤ w y then some x else some y

/-- the better of two candidates, the left one in case of a tie -/
def cmb (w : Nat → K) : Option Nat → Option Nat → Option Nat
  | none, y => y
  | some x, none => some x
  | some x, some y => if w x ≤ w y then some x else some y

omit [AddCommGroup K] [IsOrderedAddMonoid K] in
theorem fmin_cons (w : Nat → K) (x xs) : fmin w (x :: xs) = cmb w (some x) (fmin w xs) := by
  simp only [fmin]; cases fmin w xs <;> rfl

omit [AddCommGroup K] [IsOrderedAddMonoid K] in
theorem cmb_assoc (w : Nat → K) (a b c) : cmb w (cmb w a b) c = cmb w a (cmb w b c) := by
  cases a <;> cases b <;> cases c <;> simp only [cmb] <;> grind [cmb]

omit [AddCommGroup K] [IsOrderedAddMonoid K] in
@[simp] theorem cmb_none_left (w : Nat → K) (a) : cmb w none a = a := rfl
omit [AddCommGroup K] [IsOrderedAddMonoid K] in
@[simp] theorem cmb_none_right (w : Nat → K) (a) : cmb w a none = a := by cases a <;> rfl

omit [AddCommGroup K] [IsOrderedAddMonoid K] in
theorem fmin_append (w : Nat → K) (xs ys) : fmin w (xs ++ ys) = cmb w (fmin w xs) (fmin w ys) := by
  induction xs with
  | nil => simp [fmin]
  | cons x xs ih => rw [List.cons_append, fmin_cons, ih, fmin_cons, cmb_assoc]

omit [AddCommGroup K] [IsOrderedAddMonoid K] in
theorem fmin_eq_none {w : Nat → K} {xs} : fmin w xs = none ↔ xs = [] := by
  cases xs with
  | nil => simp [fmin]
  | cons x xs => simp only [fmin_cons]; cases fmin w xs <;> simp [cmb]; split <;> simp

omit [AddCommGroup K] [IsOrderedAddMonoid K] in
theorem fmin_mem {w : Nat → K} {xs m} (h : fmin w xs = some m) : m ∈ xs := by
  induction xs generalizing m with
  | nil => simp [fmin] at h
  | cons x xs ih =>
    rw [fmin_cons] at h
    cases hh : fmin w xs with
    | none => rw [hh] at h; simp [cmb] at h; simp [h]
    | some y =>
      rw [hh] at h; simp only [cmb] at h
      have := ih hh
      split at h <;> simp_all

omit [AddCommGroup K] [IsOrderedAddMonoid K] in
theorem fmin_le {w : Nat → K} {xs m} (h : fmin w xs = some m) : ∀ y ∈ xs, w m ≤ w y := by
  induction xs generalizing m with
  | nil => simp
  | cons x xs ih =>
    rw [fmin_cons] at h
    cases hh : fmin w xs with
    | none => rw [hh] at h; simp [cmb] at h; rw [fmin_eq_none] at hh; simp [h, hh]
    | some y =>
      rw [hh] at h; simp only [cmb] at h
      have := ih hh
      intro z hz
      rw [List.mem_cons] at hz
      split at h
      · next hle =>
        cases h
        rcases hz with rfl | hz
        · rfl
        · exact hle.trans (this z hz)
      · next hle =>
        cases h
        rcases hz with rfl | hz
        · exact (not_le.1 hle).le
        · exact this z hz

omit [AddCommGroup K] [IsOrderedAddMonoid K] in
theorem fmin_congr {w w' : Nat → K} {xs} (h : ∀ x ∈ xs, w' x = w x) : fmin w' xs = fmin w xs := by
  induction xs with
  | nil => rfl
  | cons x xs ih =>
    have ih' := ih fun y hy => h y (by simp [hy])
    rw [fmin_cons, fmin_cons, ih']
    cases hh : fmin w xs with
    | none => rfl
    | some y => simp only [cmb]; rw [h x (by simp), h y (by simp [fmin_mem hh])]

theorem fmin_shift {w w' : Nat → K} {xs} (d : K) (h : ∀ x ∈ xs, w' x = w x + d) :
    fmin w' xs = fmin w xs := by
  induction xs with
  | nil => rfl
  | cons x xs ih =>
    have ih' := ih fun y hy => h y (by simp [hy])
    rw [fmin_cons, fmin_cons, ih']
    cases hh : fmin w xs with
    | none => rfl
    | some y => simp only [cmb]; rw [h x (by simp), h y (by simp [fmin_mem hh])]; simp

variable {R : Type} [Add R] [Zero R] [BEq R] [LT R] [LE R] [DecidableLT R] [DecidableLE R] {E : Emb K R}

/-- `v` and all partial sums with the pending additions `ts` (nearest first) are admitted. -/
def Adm (I : K → Prop) : K → List K → Prop
  | v, [] => I v
  | v, t :: ts => I v ∧ Adm I (v + t) ts

omit [LinearOrder K] [IsOrderedAddMonoid K] in
theorem Adm.head {I : K → Prop} {v ts} (h : Adm I v ts) : I v := by
  cases ts with
  | nil => exact h
  | cons t ts => exact h.1

omit [LinearOrder K] [IsOrderedAddMonoid K] in
theorem Adm.last {I : K → Prop} {v ts} (h : Adm I v ts) : I (v + ts.sum) := by
  induction ts generalizing v with
  | nil => simpa [Adm] using h
  | cons t ts ih => rw [List.sum_cons, ← add_assoc]; exact ih h.2

/-- The value fields of the heap represent `w` on the tree `t`, where `ts` are the pending
additions above `t`; cached minima are right. Everything that is going to be added up is admitted. -/
def Good (E : Emb K R) (h : Heap K) (w : Nat → K) : T → List K → Prop
  | .nil, _ => True
  | .node l x r, ts => (w x = (h.get x).val + ts.sum ∧ Adm E.I (h.get x).val ts ∧
        E.I ((h.get x).val - (h.get x).add)) ∧
      (∃ m, fmin w (l.io ++ x :: r.io) = some m ∧ (h.get x).minP = some m ∧
        ((h.get x).minV + ts.sum = w m ∧ Adm E.I (h.get x).minV ts)) ∧
      Good E h w l ((h.get x).add :: ts) ∧ Good E h w r ((h.get x).add :: ts)

/-- As `Good`, for an auxiliary root: its own cached minimum may be stale. -/
def GoodRoot (E : Emb K R) (h : Heap K) (w : Nat → K) : T → Prop
  | .nil => True
  | .node l x r => (w x = (h.get x).val ∧ E.I (w x) ∧ ∃ v, E.I v ∧ E.I (v + (h.get x).add)) ∧
      Good E h w l [(h.get x).add] ∧ Good E h w r [(h.get x).add]

theorem Good.root {h : Heap K} {w t} (hg : Good E h w t []) : GoodRoot E h w t := by
  cases t with
  | nil => trivial
  | node l x r =>
    obtain ⟨⟨h1, h2, h2'⟩, -, h3, h4⟩ := hg
    simp only [List.sum_nil, add_zero] at *
    exact ⟨⟨h1, h1 ▸ h2, _, h2', by rw [sub_add_cancel]; exact h2⟩, h3, h4⟩

theorem Good.bnd {h : Heap K} {w t ts} (hg : Good E h w t ts) : ∀ k ∈ t.io, E.I (w k) := by
  induction t generalizing ts with
  | nil => simp
  | node l x r ihl ihr =>
    obtain ⟨⟨h1, h2, -⟩, -, h3, h4⟩ := hg
    intro k hk
    simp only [io_node, List.mem_append, List.mem_cons] at hk
    rcases hk with hk | rfl | hk
    · exact ihl h3 k hk
    · rw [h1]; exact h2.last
    · exact ihr h4 k hk

theorem Good.congr {h h' : Heap K} {w w' t a} (hg : Good E h w t a)
    (hk : ∀ k ∈ t.io, SameVal h h' k) (hw : ∀ k ∈ t.io, w' k = w k) : Good E h' w' t a := by
  induction t generalizing a with
  | nil => trivial
  | node l x r ihl ihr =>
    obtain ⟨⟨h1, h1', h1''⟩, ⟨m, m1, m2, m3, m4⟩, h3, h4⟩ := hg
    have hx := hk x (by simp)
    simp only [io_node, List.mem_append, List.mem_cons] at hk hw
    refine ⟨⟨by rw [hw x (by simp), hx.1, h1], by rw [hx.1]; exact h1', by rw [hx.1, hx.2.1]; exact h1''⟩,
      ⟨m, ?_, by rw [hx.2.2.2, m2], ?_, by rw [hx.2.2.1]; exact m4⟩, ?_, ?_⟩
    · rw [fmin_congr (by simpa using hw), m1]
    · have := fmin_mem m1
      simp only [List.mem_append, List.mem_cons] at this
      rw [hx.2.2.1, m3, hw m this]
    · rw [hx.2.1]; exact ihl h3 (fun k hk' => hk k (by simp [hk'])) (fun k hk' => hw k (by simp [hk']))
    · rw [hx.2.1]; exact ihr h4 (fun k hk' => hk k (by simp [hk'])) (fun k hk' => hw k (by simp [hk']))

theorem GoodRoot.congr {h h' : Heap K} {w w' t} (hg : GoodRoot E h w t)
    (hk : ∀ k ∈ t.io, SameVal h h' k) (hw : ∀ k ∈ t.io, w' k = w k) : GoodRoot E h' w' t := by
  cases t with
  | nil => trivial
  | node l x r =>
    obtain ⟨⟨h1, h2, v, h3', h4'⟩, h3, h4⟩ := hg
    have hx := hk x (by simp)
    simp only [io_node, List.mem_append, List.mem_cons] at hk hw
    refine ⟨⟨by rw [hw x (by simp), hx.1, h1], by rw [hw x (by simp)]; exact h2, v, h3', by rw [hx.2.1]; exact h4'⟩, ?_, ?_⟩
    · rw [hx.2.1]; exact h3.congr (fun k hk' => hk k (by simp [hk'])) (fun k hk' => hw k (by simp [hk']))
    · rw [hx.2.1]; exact h4.congr (fun k hk' => hk k (by simp [hk'])) (fun k hk' => hw k (by simp [hk']))

/-- Shifting all values of a tree by changing the pending additions. -/
theorem Good.shift {h : Heap K} {w w' t ts ts'} (d : K) (hg : Good E h w t ts)
    (hw : ∀ k ∈ t.io, w' k = w k + d) (hI : ∀ k ∈ t.io, E.I (w' k)) (hsum : ts'.sum = ts.sum + d)
    (hadm : ∀ v, Adm E.I v ts → E.I (v + ts'.sum) → Adm E.I v ts') : Good E h w' t ts' := by
  induction t generalizing ts ts' with
  | nil => trivial
  | node l x r ihl ihr =>
    obtain ⟨⟨h1, h1', h1''⟩, ⟨m, m1, m2, m3, m4⟩, h3, h4⟩ := hg
    have hw' := hw
    simp only [io_node, List.mem_append, List.mem_cons] at hw hI
    have hx : w' x = (h.get x).val + ts'.sum := by rw [hw x (by simp), h1, hsum]; abel
    have hmm := fmin_mem m1
    simp only [List.mem_append, List.mem_cons] at hmm
    have hm : (h.get x).minV + ts'.sum = w' m := by rw [hw m hmm, ← m3, hsum]; abel
    have step : ∀ a : K, (a :: ts').sum = (a :: ts).sum + d ∧
        ∀ v, Adm E.I v (a :: ts) → E.I (v + (a :: ts').sum) → Adm E.I v (a :: ts') := by
      intro a
      refine ⟨by simp only [List.sum_cons, hsum]; abel, fun v hv hv' => ⟨hv.1, hadm _ hv.2 ?_⟩⟩
      rwa [List.sum_cons, ← add_assoc] at hv'
    refine ⟨⟨hx, hadm _ h1' (hx ▸ hI x (by simp)), h1''⟩, ⟨m, ?_, m2, hm, hadm _ m4 (hm ▸ hI m hmm)⟩, ?_, ?_⟩
    · rw [fmin_shift d (by simpa using hw), m1]
    · exact ihl h3 (fun k hk' => hw k (by simp [hk'])) (fun k hk' => hI k (by simp [hk'])) (step _).1 (step _).2
    · exact ihr h4 (fun k hk' => hw k (by simp [hk'])) (fun k hk' => hI k (by simp [hk'])) (step _).1 (step _).2

/-- Another description of the pending additions. -/
theorem Good.mono {h : Heap K} {w t ts ts'} (hg : Good E h w t ts) (hsum : ts'.sum = ts.sum)
    (hadm : ∀ v, Adm E.I v ts → Adm E.I v ts') : Good E h w t ts' :=
  hg.shift 0 (by simp) hg.bnd (by simpa using hsum) fun v hv _ => hadm v hv

theorem Good.zero {h : Heap K} {w t ts} (hg : Good E h w t (0 :: ts)) : Good E h w t ts :=
  hg.mono (by simp) fun v hv => by simpa using hv.2

theorem Good.zero' {h : Heap K} {w t ts} (hg : Good E h w t ts) : Good E h w t (0 :: ts) :=
  hg.mono (by simp) fun v hv => ⟨hv.head, by simpa using hv⟩

theorem Good.merge {h : Heap K} {w t a b ts} (hg : Good E h w t (a :: b :: ts)) :
    Good E h w t ((a + b) :: ts) :=
  hg.mono (by simp [add_assoc]) fun v hv => ⟨hv.1, by rw [← add_assoc]; exact hv.2.2⟩

/-! ### `push_up` -/

/-- the pair computed by `push_up` -/
def upMin (h : Heap K) (x : Nat) : K × Option Nat :=
  let n := h.get x
  let m0 : K × Option Nat := (n.val, some x)
  let m1 : K × Option Nat := match n.ch0 with
    | none => m0
    | some c => if (h.get c).minV ≤ m0.1 then ((h.get c).minV, (h.get c).minP) else m0
  match n.ch1 with
    | none => m1
    | some c => if (h.get c).minV < m1.1 then ((h.get c).minV, (h.get c).minP) else m1

/-- the heap after `push_up` -/
def pushUpH (h : Heap K) (x : Nat) : Heap K :=
  h.set x { h.get x with minV := (upMin h x).1, minP := (upMin h x).2 }

omit [AddCommGroup K] [IsOrderedAddMonoid K] in
theorem pushUp_ok {h : Heap K} {x} (hx : x < h.size)
    (h0 : ∀ c, (h.get x).ch0 = some c → c < h.size) (h1 : ∀ c, (h.get x).ch1 = some c → c < h.size) :
    pushUp h x = .ok (pushUpH h x) := by
  unfold pushUp pushUpH upMin
  rw [Vec.rd_ok hx]
  simp only [ok_bind]
  cases e0 : (h.get x).ch0 with
  | none =>
    cases e1 : (h.get x).ch1 with
    | none => simp [Vec.wr_ok _ hx]
    | some c => simp [Vec.wr_ok _ hx, Vec.rd_ok (h1 c e1)]
  | some c0 =>
    cases e1 : (h.get x).ch1 with
    | none => simp [Vec.wr_ok _ hx, Vec.rd_ok (h0 c0 e0)]
    | some c => simp [Vec.wr_ok _ hx, Vec.rd_ok (h1 c e1), Vec.rd_ok (h0 c0 e0)]

omit [AddCommGroup K] [IsOrderedAddMonoid K] in
@[simp] theorem pushUpH_size (h : Heap K) (x) : (pushUpH h x).size = h.size := rfl

omit [AddCommGroup K] [IsOrderedAddMonoid K] in
theorem pushUpH_ne (h : Heap K) {x k} (hk : k ≠ x) : (pushUpH h x).get k = h.get k :=
  Vec.set_get_ne _ _ hk

omit [AddCommGroup K] [IsOrderedAddMonoid K] in
theorem pushUpH_ptr (h : Heap K) (x k) : SamePtr h (pushUpH h x) k := by
  by_cases hk : k = x
  · subst hk; simp [SamePtr, pushUpH]
  · simp [SamePtr, pushUpH_ne h hk]

omit [AddCommGroup K] [IsOrderedAddMonoid K] in
theorem pushUpH_val (h : Heap K) (x k) :
    ((pushUpH h x).get k).val = (h.get k).val ∧ ((pushUpH h x).get k).add = (h.get k).add := by
  by_cases hk : k = x
  · subst hk; simp [pushUpH]
  · simp [pushUpH_ne h hk]

omit [AddCommGroup K] [IsOrderedAddMonoid K] in
theorem pushUp_shape {h : Heap K} {l x r f} (hs : Shape h (node l x r) f) :
    pushUp h x = .ok (pushUpH h x) := by
  obtain ⟨h1, h2, h3, h4, h5, h6⟩ := hs
  exact pushUp_ok h1 (fun c e => h5.lt (rt_mem (h3 ▸ e))) (fun c e => h6.lt (rt_mem (h4 ▸ e)))

theorem pushUp_good {h : Heap K} {w l x r f} (hs : Shape h (node l x r) f)
    (hn : (node l x r).io.Nodup)
    (hl : Good E h w l []) (hr : Good E h w r []) (hxI : w x = (h.get x).val ∧ E.I (w x)) (ha : (h.get x).add = 0) :
    Good E (pushUpH h x) w (node l x r) [] := by
  obtain ⟨h1, h2, h3, h4, h5, h6⟩ := hs
  simp only [io_node, List.nodup_append, List.nodup_cons, List.mem_cons] at hn
  obtain ⟨hn1, ⟨hn2, hn3⟩, hn4⟩ := hn
  obtain ⟨hx, hI⟩ := hxI
  refine ⟨⟨by rw [(pushUpH_val h x x).1, hx, List.sum_nil, add_zero], ?_, ?_⟩, ?_, ?_, ?_⟩
  · rw [(pushUpH_val h x x).1, ← hx]; exact hI
  · rw [(pushUpH_val h x x).1, (pushUpH_val h x x).2, ha, sub_zero, ← hx]; exact hI
  · -- the minimum
    have key : ∃ m, fmin w (l.io ++ x :: r.io) = some m ∧ upMin h x = (w m, some m) := by
      rw [fmin_append, fmin_cons, ← cmb_assoc]
      unfold upMin
      dsimp only
      rw [h3, h4]
      -- left part
      have L : ∃ m, cmb w (fmin w l.io) (some x) = some m ∧
          (match l.rt with
            | none => ((h.get x).val, some x)
            | some c => if (h.get c).minV ≤ (h.get x).val then ((h.get c).minV, (h.get c).minP)
                else ((h.get x).val, some x)) = (w m, some m) := by
        cases l with
        | nil => exact ⟨x, by simp [fmin], by simp [hx]⟩
        | node l1 c l2 =>
          obtain ⟨-, ⟨m, m1, m2, m3, -⟩, -⟩ := hl
          simp only [List.sum_nil, add_zero] at m3
          simp only [rt_node, io_node, m1, cmb, m2, m3, ← hx]
          by_cases hc : w m ≤ w x
          · exact ⟨m, by simp [hc], by simp [hc]⟩
          · exact ⟨x, by simp [hc], by simp [hc]⟩
      obtain ⟨m, m1, m2⟩ := L
      simp only [m1, m2]
      cases r with
      | nil => exact ⟨m, by simp [fmin], by simp⟩
      | node r1 c r2 =>
        obtain ⟨-, ⟨m', m1', m2', m3', -⟩, -⟩ := hr
        simp only [List.sum_nil, add_zero] at m3'
        simp only [rt_node, io_node, m1', cmb, m2', m3']
        by_cases hc : w m ≤ w m'
        · exact ⟨m, by simp [hc], by simp [not_lt.2 hc]⟩
        · exact ⟨m', by simp [hc], by simp [not_le.1 hc]⟩
    obtain ⟨m, m1, m2⟩ := key
    refine ⟨m, m1, by simp [pushUpH, m2], by simp [pushUpH, m2], ?_⟩
    have hmm := fmin_mem m1
    simp only [List.mem_append, List.mem_cons] at hmm
    have : ((pushUpH h x).get x).minV = w m := by simp [pushUpH, m2]
    rw [this]
    rcases hmm with hm | rfl | hm
    · exact hl.bnd m hm
    · exact hI
    · exact hr.bnd m hm
  · rw [(pushUpH_val h x x).2, ha]
    refine hl.zero'.congr (fun k hk => ?_) (fun _ _ => rfl)
    rw [SameVal, pushUpH_ne h (fun e => hn4 k hk x (.inl rfl) e)]; simp
  · rw [(pushUpH_val h x x).2, ha]
    refine hr.zero'.congr (fun k hk => ?_) (fun _ _ => rfl)
    rw [SameVal, pushUpH_ne h (by rintro rfl; exact hn2 hk)]; simp

theorem pushUp_simE {h : Heap K} {w l x r f} (hs : Shape h (node l x r) f)
    (hl : Good E h w l []) (hr : Good E h w r []) (hxI : w x = (h.get x).val ∧ E.I (w x)) :
    pushUp (E.h h) x = .ok (E.h (pushUpH h x)) := by
  refine sim_map (pushUp_sim E (hxI.1 ▸ hxI.2) (fun c hc => ?_) fun c hc => ?_) (pushUp_shape hs)
  · rw [hs.2.2.1] at hc
    cases l with
    | nil => simp at hc
    | node l1 y l2 =>
      cases hc
      obtain ⟨-, ⟨m, -, -, -, m4⟩, -⟩ := hl
      exact m4
  · rw [hs.2.2.2.1] at hc
    cases r with
    | nil => simp at hc
    | node l1 y l2 =>
      cases hc
      obtain ⟨-, ⟨m, -, -, -, m4⟩, -⟩ := hr
      exact m4

/-! ### `push_down` -/

/-- node after `update_add` -/
def addN (n : LNode K) (w : K) : LNode K := { n with val := n.val + w, add := n.add + w, minV := n.minV + w }

omit [LinearOrder K] [IsOrderedAddMonoid K] in
theorem updateAdd_ok {h : Heap K} {x} (w : K) (hx : x < h.size) :
    updateAdd h x w = .ok (h.set x (addN (h.get x) w)) := by
  simp [updateAdd, Vec.rd_ok hx, Vec.wr_ok _ hx, addN]

/-- After adding `d` to the root's fields the addition of `d` is not pending any more. -/
theorem Good.updateAdd {h h' : Heap K} {w t ts} (d : K) (hg : Good E h w t (d :: ts)) (hn : t.io.Nodup)
    (h1 : ∀ x, t.rt = some x → (h'.get x).val = (h.get x).val + d ∧ (h'.get x).add = (h.get x).add + d ∧
      (h'.get x).minV = (h.get x).minV + d ∧ (h'.get x).minP = (h.get x).minP)
    (h2 : ∀ k ∈ t.io, t.rt ≠ some k → SameVal h h' k) : Good E h' w t ts := by
  cases t with
  | nil => trivial
  | node l x r =>
    obtain ⟨⟨g1, g1', g1''⟩, ⟨m, m1, m2, m3, m4⟩, g3, g4⟩ := hg
    obtain ⟨e1, e2, e3, e4⟩ := h1 x rfl
    simp only [io_node, List.nodup_append, List.nodup_cons, List.mem_cons] at hn
    obtain ⟨hn1, ⟨hn2, hn3⟩, hn4⟩ := hn
    rw [List.sum_cons, ← add_assoc] at g1 m3
    refine ⟨⟨by rw [e1, g1], by rw [e1]; exact g1'.2, by rw [e1, e2, add_sub_add_right_eq_sub]; exact g1''⟩,
      ⟨m, m1, by rw [e4, m2], by rw [e3, ← m3], by rw [e3]; exact m4.2⟩, ?_, ?_⟩
    · rw [e2]
      exact g3.merge.congr
        (fun k hk => h2 k (by simp [hk]) (by simp; exact fun e => hn4 k hk x (.inl rfl) e.symm))
        (fun _ _ => rfl)
    · rw [e2]
      exact g4.merge.congr (fun k hk => h2 k (by simp [hk]) (by simp; rintro rfl; exact hn2 hk))
        (fun _ _ => rfl)

/-- the additions of `update_add` are exact -/
structure AddOK (E : Emb K R) (n : LNode K) (d : K) : Prop where
  val : E.e (n.val + d) = E.e n.val + E.e d
  add : E.e (n.add + d) = E.e n.add + E.e d
  min : E.e (n.minV + d) = E.e n.minV + E.e d

theorem Good.addOK {h : Heap K} {w l x r d ts} (hg : Good E h w (node l x r) (d :: ts)) :
    AddOK E (h.get x) d := by
  obtain ⟨⟨-, g1', g1''⟩, ⟨m, m1, m2, m3, m4⟩, -⟩ := hg
  exact ⟨E.add _ _ g1'.1 g1'.2.head, E.tag _ _ _ g1'' g1'.1 g1'.2.head, E.add _ _ m4.1 m4.2.head⟩

theorem updateAdd_sim {h : Heap K} {x} {d : K} (ha : AddOK E (h.get x) d) :
    LCT.updateAdd (E.h h) x (E.e d) = (LCT.updateAdd h x d).map E.h := by
  unfold LCT.updateAdd
  refine sim_bind (rd_sim E h x) fun n hn => wr_sim E h x _ ?_
  have : h.get x = n := by
    unfold Vec.rd at hn; split at hn
    · cases hn; rfl
    · cases hn
  rw [this] at ha
  simp only [Emb.n, ha.val, ha.add, ha.min]

theorem pushDown_sim {h : Heap K} {x} (hb : ∃ v, E.I v ∧ E.I (v + (h.get x).add)) (h0 : ∀ c, (h.get x).ch0 = some c → AddOK E (h.get c) (h.get x).add)
    (h1 : ∀ c, (h.get x).ch1 = some c → (h.get x).ch0 ≠ some c ∧ AddOK E (h.get c) (h.get x).add) :
    pushDown (E.h h) x = (pushDown h x).map E.h := by
  unfold pushDown
  refine sim_bind (rd_sim E h x) fun n hn => ?_
  have hx : h.get x = n := by
    unfold Vec.rd at hn; split at hn
    · cases hn; rfl
    · cases hn
  rw [hx] at h0 h1 hb
  obtain ⟨fa, ch0, ch1, minV, minP, val, add⟩ := n
  obtain ⟨b, hb1, hb2⟩ := hb
  simp only at hb2
  simp only [emb_add, E.beq b _ hb1 hb2, emb_ch0, emb_ch1] at h0 h1 ⊢
  by_cases hz : add = 0
  · simp [hz]
  · have hz' : (add == 0) = false := by simpa using hz
    simp only [hz, hz', decide_false, Bool.not_false, if_true]
    have fin : ∀ h2 : Heap K, ((E.h h2).rd x >>= fun n => (E.h h2).wr x { n with add := 0 }) =
        (h2.rd x >>= fun n => h2.wr x { n with add := 0 }).map E.h := by
      intro h2
      refine sim_bind (rd_sim E h2 x) fun n _ => wr_sim E h2 x _ ?_
      simp only [Emb.n, E.zero]
    have keep : ∀ c0 h3, LCT.updateAdd h c0 add = .ok h3 → ∀ c, c0 ≠ c → h3.get c = h.get c := by
      intro c0 h3 e3 c hne
      unfold LCT.updateAdd at e3
      rw [bind_eq_ok] at e3
      obtain ⟨n, -, e3⟩ := e3
      unfold Vec.wr at e3
      split at e3
      · cases e3; exact Vec.set_get_ne _ _ hne.symm
      · cases e3
    cases ch0 with
    | none =>
      refine sim_bind (f := E.h) rfl fun h3 e3 => ?_
      cases e3
      cases ch1 with
      | none => exact fin h
      | some c => exact sim_bind (updateAdd_sim (h1 c rfl).2) fun h3 _ => fin h3
    | some c0 =>
      refine sim_bind (updateAdd_sim (h0 c0 rfl)) fun h3 e3 => ?_
      cases ch1 with
      | none => exact fin h3
      | some c =>
        refine sim_bind (updateAdd_sim ?_) fun h3 _ => fin h3
        rw [keep c0 h3 e3 c (by rintro rfl; exact (h1 c0 rfl).1 rfl)]
        exact (h1 c rfl).2

theorem pushDown_spec {h : Heap K} {w l x r f ts} (hs : Shape h (node l x r) f)
    (hn : (node l x r).io.Nodup) (hb : ∃ v, E.I v ∧ E.I (v + (h.get x).add))
    (hl : Good E h w l ((h.get x).add :: ts)) (hr : Good E h w r ((h.get x).add :: ts)) :
    ∃ h', pushDown h x = .ok h' ∧ h'.size = h.size ∧ (∀ k, SamePtr h h' k) ∧
      (∀ k, k ∉ (node l x r).io → h'.get k = h.get k) ∧
      (h'.get x).val = (h.get x).val ∧ (h'.get x).minV = (h.get x).minV ∧
      (h'.get x).minP = (h.get x).minP ∧ (h'.get x).add = 0 ∧
      Good E h' w l ts ∧ Good E h' w r ts ∧ pushDown (E.h h) x = .ok (E.h h') := by
  obtain ⟨h1, h2, h3, h4, h5, h6⟩ := hs
  simp only [io_node, List.nodup_append, List.nodup_cons, List.mem_cons] at hn
  obtain ⟨hn1, ⟨hn2, hn3⟩, hn4⟩ := hn
  have nlr : ∀ k ∈ l.io, k ∉ r.io := fun k hk hk' => hn4 k hk k (.inr hk') rfl
  have nlx : x ∉ l.io := fun hk => hn4 x hk x (.inl rfl) rfl
  have hsim : pushDown (E.h h) x = (pushDown h x).map E.h := by
    refine pushDown_sim hb (fun c hc => ?_) (fun c hc => ?_)
    · rw [h3] at hc
      cases l with
      | nil => simp at hc
      | node l1 y l2 => cases hc; exact hl.addOK
    · rw [h4] at hc
      cases r with
      | nil => simp at hc
      | node l1 y l2 =>
        cases hc
        exact ⟨fun e => nlr c (rt_mem (h3 ▸ e)) (by simp), hr.addOK⟩
  suffices H : ∃ h', pushDown h x = .ok h' ∧ h'.size = h.size ∧ (∀ k, SamePtr h h' k) ∧
      (∀ k, k ∉ (node l x r).io → h'.get k = h.get k) ∧
      (h'.get x).val = (h.get x).val ∧ (h'.get x).minV = (h.get x).minV ∧
      (h'.get x).minP = (h.get x).minP ∧ (h'.get x).add = 0 ∧ Good E h' w l ts ∧ Good E h' w r ts by
    obtain ⟨h', e1, e2, e3, e4, e5, e6, e7, e8, e9, e10⟩ := H
    exact ⟨h', e1, e2, e3, e4, e5, e6, e7, e8, e9, e10, sim_map hsim e1⟩
  unfold pushDown
  rw [Vec.rd_ok h1]
  simp only [ok_bind]
  by_cases hz : (h.get x).add = 0
  · rw [if_neg (by simp [hz])]
    rw [hz] at hl hr
    exact ⟨h, rfl, rfl, by simp [SamePtr], by simp, rfl, rfl, rfl, hz, hl.zero, hr.zero⟩
  · rw [if_pos (by simp [hz])]
    set δ := (h.get x).add with hδ
    -- heap after updating the left child
    let hA : Heap K := match l.rt with | none => h | some c => h.set c (addN (h.get c) δ)
    have hAsz : hA.size = h.size := by simp only [hA]; cases l.rt <;> rfl
    have hAne : ∀ k, l.rt ≠ some k → hA.get k = h.get k := by
      intro k hk; simp only [hA]; cases e : l.rt with
      | none => rfl
      | some c => exact Vec.set_get_ne _ _ (by rintro rfl; exact hk e)
    have hAeq : ∀ k, l.rt = some k → hA.get k = addN (h.get k) δ := by
      intro k hk; simp only [hA, hk]; simp
    let hB : Heap K := match r.rt with | none => hA | some c => hA.set c (addN (hA.get c) δ)
    have hBsz : hB.size = h.size := by simp only [hB]; cases r.rt <;> simpa
    have hBne : ∀ k, r.rt ≠ some k → hB.get k = hA.get k := by
      intro k hk; simp only [hB]; cases e : r.rt with
      | none => rfl
      | some c => exact Vec.set_get_ne _ _ (by rintro rfl; exact hk e)
    have hBeq : ∀ k, r.rt = some k → hB.get k = addN (h.get k) δ := by
      intro k hk
      have : hA.get k = h.get k := hAne k fun e => nlr k (rt_mem e) (rt_mem hk)
      simp only [hB, hk]; simp [this]
    have hBx : hB.get x = h.get x := by
      rw [hBne x (fun e => hn2 (rt_mem e)), hAne x (fun e => nlx (rt_mem e))]
    set hC := hB.set x { hB.get x with add := 0 } with hC'
    have hCne : ∀ k, k ≠ x → hC.get k = hB.get k := fun k hk => Vec.set_get_ne _ _ hk
    have hCx : hC.get x = { h.get x with add := 0 } := by simp [hC', hBx]
    have hCl : ∀ k, l.rt = some k → hC.get k = addN (h.get k) δ := by
      intro k hk
      rw [hCne k (by rintro rfl; exact nlx (rt_mem hk)), hBne k (fun e => nlr k (rt_mem hk) (rt_mem e)),
        hAeq k hk]
    have hCr : ∀ k, r.rt = some k → hC.get k = addN (h.get k) δ := by
      intro k hk
      rw [hCne k (by rintro rfl; exact hn2 (rt_mem hk)), hBeq k hk]
    have hCo : ∀ k, k ≠ x → l.rt ≠ some k → r.rt ≠ some k → hC.get k = h.get k := by
      intro k k1 k2 k3
      rw [hCne k k1, hBne k k3, hAne k k2]
    have hok : ((Vec.rd hB x).bind fun n => Vec.wr hB x { n with add := 0 }) = .ok hC := by
      rw [Vec.rd_ok (by omega)]
      exact Vec.wr_ok _ (by omega)
    refine ⟨hC, ?_, hBsz, ?_, ?_, ?_, ?_, ?_, ?_, ?_, ?_⟩
    · rw [← hok, h3, h4]
      cases e : l.rt with
      | none =>
        have eA : hA = h := by simp [hA, e]
        cases e' : r.rt with
        | none =>
          have eB : hB = h := by simp [hB, e', eA]
          simp only [eB]; rfl
        | some c' =>
          have eB : hB = h.set c' (addN (h.get c') δ) := by simp [hB, e', eA]
          simp only [eB, updateAdd_ok _ (h6.lt (rt_mem e'))]; rfl
      | some c =>
        have eA : hA = h.set c (addN (h.get c) δ) := by simp [hA, e]
        cases e' : r.rt with
        | none =>
          have eB : hB = hA := by simp [hB, e']
          simp only [eB, eA, updateAdd_ok _ (h5.lt (rt_mem e))]; rfl
        | some c' =>
          have eB : hB = hA.set c' (addN (hA.get c') δ) := by simp [hB, e']
          have hc' : c' < hA.size := by have := h6.lt (rt_mem e'); omega
          simp only [updateAdd_ok _ (h5.lt (rt_mem e)), ok_bind]
          rw [← eA, updateAdd_ok _ hc', ← eB]; rfl
    · intro k
      by_cases k1 : k = x
      · subst k1; simp [SamePtr, hCx]
      by_cases k2 : l.rt = some k
      · simp [SamePtr, hCl k k2, addN]
      by_cases k3 : r.rt = some k
      · simp [SamePtr, hCr k k3, addN]
      simp [SamePtr, hCo k k1 k2 k3]
    · intro k hk
      simp only [io_node, List.mem_append, List.mem_cons, not_or] at hk
      exact hCo k hk.2.1 (fun e => hk.1 (rt_mem e)) (fun e => hk.2.2 (rt_mem e))
    · simp [hCx]
    · simp [hCx]
    · simp [hCx]
    · simp [hCx]
    · exact Good.updateAdd (h' := hC) δ hl hn1 (fun k hk => by simp [hCl k hk, addN]) (fun k hk hk' => by
        rw [SameVal, hCo k (by rintro rfl; exact nlx hk) hk' (fun e => nlr k hk (rt_mem e))]; simp)
    · exact Good.updateAdd (h' := hC) δ hr hn3 (fun k hk => by simp [hCr k hk, addN]) (fun k hk hk' => by
        rw [SameVal, hCo k (by rintro rfl; exact hn2 hk) (fun e => nlr k (rt_mem e) hk) hk']; simp)

/-! ### `push_down_from_root` -/

/-- Nothing is pending along the context and everything hanging off it is right. -/
def Hang (E : Emb K R) (h : Heap K) (w : Nat → K) (c : List (Bool × Nat × T)) : Prop :=
  ∀ d y s, (d, y, s) ∈ c → (w y = (h.get y).val ∧ E.I (w y)) ∧ (h.get y).add = 0 ∧ Good E h w s []

theorem Hang.congr {h h' : Heap K} {w c} (hh : Hang E h w c)
    (hk : ∀ d y s, (d, y, s) ∈ c → SameVal h h' y ∧ ∀ k ∈ s.io, SameVal h h' k) : Hang E h' w c := by
  intro d y s hm
  obtain ⟨h1, h2, h3⟩ := hh d y s hm
  obtain ⟨k1, k2⟩ := hk d y s hm
  exact ⟨⟨by rw [k1.1, h1.1], h1.2⟩, by rw [k1.2.1, h2], h3.congr k2 (fun _ _ => rfl)⟩

theorem pushDownFromRoot_spec {w : Nat → K} {F} (c : List (Bool × Nat × T)) :
    ∀ (fuel : Nat) (h : Heap K) (a x b), Shape h (plug (node a x b) c) F →
      (plug (node a x b) c).io.Nodup → RootOK h (plug (node a x b) c) F →
      GoodRoot E h w (plug (node a x b) c) → c.length + 1 ≤ fuel →
      ∃ h', pushDownFromRoot fuel h x = .ok h' ∧ h'.size = h.size ∧ (∀ k, SamePtr h h' k) ∧
        (∀ k, k ∉ (plug (node a x b) c).io → h'.get k = h.get k) ∧
        Hang E h' w c ∧ (w x = (h'.get x).val ∧ E.I (w x)) ∧ (h'.get x).add = 0 ∧ Good E h' w a [] ∧
        Good E h' w b [] ∧ pushDownFromRoot fuel (E.h h) x = .ok (E.h h') := by
  induction c with
  | nil =>
    intro fuel h a x b hs hn hr hg hf
    obtain ⟨fuel, rfl⟩ : ∃ k, fuel = k + 1 := ⟨fuel - 1, by simp at hf; omega⟩
    have hroot := isRoot_ctx hs hr
    obtain ⟨g1, g2, g3⟩ := hg
    obtain ⟨h', e1, e2, e3, e4, e5, e6, e7, e8, e9, e10, e11⟩ :=
      pushDown_spec (ts := []) hs hn g1.2.2 g2 g3
    refine ⟨h', ?_, e2, e3, e4, ?_, ⟨by rw [e5, g1.1], g1.2.1⟩, e8, e9, e10, ?_⟩
    rotate_right
    · simp [pushDownFromRoot, isRoot_sim, hroot, e11]
    · simp [pushDownFromRoot, hroot, e1]
    · intro d y s hm; simp at hm
  | cons fr c ih =>
    obtain ⟨d, y, s⟩ := fr
    intro fuel h a x b hs hn hr hg hf
    obtain ⟨fuel, rfl⟩ : ∃ k, fuel = k + 1 := ⟨fuel - 1, by simp at hf; omega⟩
    have hroot := isRoot_ctx hs hr
    -- focus on the parent
    obtain ⟨p, q, hpq⟩ : ∃ p q, nd d (node a x b) y s = node p y q ∧
        ((p = node a x b ∧ q = s) ∨ (p = s ∧ q = node a x b)) := by
      cases d
      · exact ⟨_, _, rfl, .inl ⟨rfl, rfl⟩⟩
      · exact ⟨_, _, rfl, .inr ⟨rfl, rfl⟩⟩
    have hpl : plug (node a x b) ((d, y, s) :: c) = plug (node p y q) c := by
      rw [plug_cons, hpq.1]
    obtain ⟨h1, e1, e2, e3, e4, e5, e6, e7, e8, e9, e10⟩ := ih fuel h p y q (hpl ▸ hs) (hpl ▸ hn)
      (hpl ▸ hr) (hpl ▸ hg) (by simp at hf ⊢; omega)
    have hgx : Good E h1 w (node a x b) [] ∧ Good E h1 w s [] := by
      rcases hpq.2 with ⟨rfl, rfl⟩ | ⟨rfl, rfl⟩
      · exact ⟨e8, e9⟩
      · exact ⟨e9, e8⟩
    have hs1 : Shape h1 (plug (node a x b) ((d, y, s) :: c)) F := hs.congr e2 fun k _ => e3 k
    have hs2 := (shape_plug.1 hs1).1
    have hn2 := nodup_of_plug hn
    obtain ⟨⟨⟨g1, g1', g1''⟩, -, g3, g4⟩, gs⟩ := hgx
    rw [List.sum_nil, add_zero] at g1
    obtain ⟨h', k1, k2, k3, k4, k5, k6, k7, k8, k9, k10, k11⟩ := pushDown_spec hs2 hn2
      ⟨_, g1'', by rw [sub_add_cancel]; exact g1'.head⟩ g3 g4
    have hx1 : x < h.size := hs.lt (by rw [mem_plug]; simp)
    have hfa : (h.get x).fa = some y := (shape_plug.1 hs).1.2.1
    have hdj := @disj_of_plug ((d, y, s) :: c) _ hn
    refine ⟨h', ?_, by omega, ?_, ?_, ?_, ⟨by rw [k5, g1], g1 ▸ g1'⟩, k8, k9, k10, ?_⟩
    rotate_right
    · simp [pushDownFromRoot, isRoot_sim, hroot, rd_sim, Vec.rd_ok hx1, hfa, deref, e10, k11]
    · simp [pushDownFromRoot, hroot, Vec.rd_ok hx1, hfa, deref, e1, k1]
    · intro k
      have := e3 k; have := k3 k
      simp_all [SamePtr]
    · intro k hk
      rw [k4 k (fun hm => hk (by rw [mem_plug]; exact .inl hm)), e4 k (by rwa [← hpl])]
    · have H : Hang E h1 w ((d, y, s) :: c) := by
        intro d' y' s' hm
        rw [List.mem_cons] at hm
        rcases hm with hm | hm
        · cases hm; exact ⟨e6, e7, gs⟩
        · exact e5 d' y' s' hm
      refine H.congr fun d' y' s' hm => ?_
      have : ∀ k, (k = y' ∨ k ∈ s'.io) → h'.get k = h1.get k := by
        intro k hk
        refine k4 k fun hm' => ?_
        have := hdj hm' hm
        rcases hk with hk | hk
        · exact this.1 hk
        · exact this.2 hk
      exact ⟨by rw [SameVal, this y' (.inl rfl)]; simp, fun k hk => by rw [SameVal, this k (.inr hk)]; simp⟩

/-! ### `splay` -/

omit [AddCommGroup K] [LinearOrder K] [IsOrderedAddMonoid K] in
theorem SameVal.trans' {h1 h2 h3 : Heap K} {k} (a : SameVal h1 h2 k) (b : SameVal h2 h3 k) :
    SameVal h1 h3 k := by simp_all [SameVal]

theorem rotPre_sim (h : Heap K) (x) : rotPre (E.h h) x = (rotPre h x).map fun p => (E.h p.1, p.2) := by
  unfold rotPre
  refine sim_bind (rd_sim E h x) fun nx _ => ?_
  refine sim_bind' rfl fun f _ => ?_
  refine sim_bind (rd_sim E h f) fun nf _ => ?_
  refine sim_bind' (dir_sim E h x) fun c _ => ?_
  simp only [emb_fa]
  have hch : LNode.ch (E.n nx) (!c) = LNode.ch nx (!c) := by cases c <;> rfl
  rw [hch]
  cases nf.fa with
  | none =>
    refine sim_bind' rfl fun cc _ => ?_
    refine sim_bind (setc_sim E h f _ c) fun h1 _ => ?_
    refine sim_bind (setc_sim E h1 x _ _) fun h2 _ => ?_
    refine sim_bind (rd_sim E h2 x) fun n _ => ?_
    exact sim_bind (wr_sim E h2 x _ rfl) fun h3 _ => rfl
  | some g =>
    refine sim_bind' (dir_sim E h f) fun cc _ => ?_
    refine sim_bind (setc_sim E h f _ c) fun h1 _ => ?_
    refine sim_bind (setc_sim E h1 x _ _) fun h2 _ => ?_
    refine sim_bind (rd_sim E h2 g) fun ng _ => ?_
    have hcg : LNode.ch (E.n ng) cc = LNode.ch ng cc := by cases cc <;> rfl
    rw [hcg]
    by_cases hc : LNode.ch ng cc = some f
    · rw [if_pos hc, if_pos hc]
      exact sim_bind (setc_sim E h2 g _ _) fun h3 _ => rfl
    · rw [if_neg hc, if_neg hc]
      refine sim_bind (rd_sim E h2 x) fun n _ => ?_
      exact sim_bind (wr_sim E h2 x _ rfl) fun h3 _ => rfl

/-- One rotation, with values. `A` is whatever moves up together with `x`. -/
theorem rot_spec {h : Heap K} {w d a x b f s c F}
    (hs : Shape h (plug (nd d (nd d a x b) f s) c) F)
    (hn : (plug (nd d (nd d a x b) f s) c).io.Nodup)
    (hr : RootOK h (plug (nd d (nd d a x b) f s) c) F)
    (hb : Good E h w b []) (hsg : Good E h w s []) (hf : w f = (h.get f).val ∧ E.I (w f)) (hfa : (h.get f).add = 0) :
    ∃ h', rot h x = .ok h' ∧ h'.size = h.size ∧
      Shape h' (plug (nd d a x (nd d b f s)) c) F ∧
      (plug (nd d a x (nd d b f s)) c).io = (plug (nd d (nd d a x b) f s) c).io ∧
      RootOK h' (plug (nd d a x (nd d b f s)) c) F ∧
      (∀ k, k ∉ (plug (nd d (nd d a x b) f s) c).io → h'.get k = h.get k) ∧
      (∀ k, k ≠ f → SameVal h h' k) ∧ Good E h' w (nd d b f s) [] ∧ rot (E.h h) x = .ok (E.h h') := by
  obtain ⟨h1, e1, e2, e3, e4, e5, e6⟩ := rot_struct hs hn hr
  have hio : (plug (nd d a x (nd d b f s)) c).io = (plug (nd d (nd d a x b) f s) c).io := by
    apply io_plug_congr
    cases d <;> simp
  have hsf : Shape h1 (nd d b f s) (some x) := ((shape_nd.1 (shape_plug.1 e3).1)).2.2.2.2.2
  have hnf : (nd d b f s).io.Nodup := by
    rw [← hio] at hn
    have := nodup_of_plug hn
    cases d <;> simp [List.nodup_append] at this ⊢ <;> grind
  have hup : pushUp h1 f = .ok (pushUpH h1 f) := by
    cases d <;> exact pushUp_shape hsf
  have hgood : Good E (pushUpH h1 f) w (nd d b f s) [] ∧ pushUp (E.h h1) f = .ok (E.h (pushUpH h1 f)) := by
    have hb1 : Good E h1 w b [] := hb.congr (fun k _ => e5 k) (fun _ _ => rfl)
    have hs1 : Good E h1 w s [] := hsg.congr (fun k _ => e5 k) (fun _ _ => rfl)
    have hf1 : w f = (h1.get f).val ∧ E.I (w f) := ⟨by rw [(e5 f).1, hf.1], hf.2⟩
    have hf2 : (h1.get f).add = 0 := by rw [(e5 f).2.1, hfa]
    cases d
    · exact ⟨pushUp_good hsf hnf hb1 hs1 hf1 hf2, pushUp_simE hsf hb1 hs1 hf1⟩
    · exact ⟨pushUp_good hsf hnf hs1 hb1 hf1 hf2, pushUp_simE hsf hs1 hb1 hf1⟩
  have hfm : f ∈ (plug (nd d (nd d a x b) f s) c).io := by rw [mem_plug]; simp [mem_io_nd]
  have hout : ∀ k, k ∉ (plug (nd d (nd d a x b) f s) c).io → (pushUpH h1 f).get k = h.get k := by
    intro k hk
    rw [pushUpH_ne _ (by rintro rfl; exact hk hfm), e4 k hk]
  refine ⟨pushUpH h1 f, by rw [e1, hup], e2, e3.congr rfl fun k _ => pushUpH_ptr _ _ _, hio, ?_, hout,
    ?_, hgood.1, by rw [rot_eq, rotPre_sim, e6, map_ok, ok_bind]; exact hgood.2⟩
  · exact hr.congr e2 (fun k => by rw [hio]) hout
  · intro k hk
    have := e5 k
    rw [SameVal, pushUpH_ne _ hk]; exact this

set_option maxHeartbeats 1000000 in
/-- The loop of `splay`. -/
theorem splayLoop_spec {w : Nat → K} {F x} : ∀ (n : Nat) (c : List (Bool × Nat × T)) (fuel : Nat)
    (h : Heap K) (a b), c.length ≤ n → Shape h (plug (node a x b) c) F →
      (plug (node a x b) c).io.Nodup → RootOK h (plug (node a x b) c) F → Hang E h w c →
      Good E h w a [] → Good E h w b [] → c.length + 1 ≤ fuel →
      ∃ h' a' b', whileLoop (fun h => do let r ← isRoot h x; .ok (!r)) (fun h => splayStep h x) fuel h = .ok h' ∧
        h'.size = h.size ∧ (node a' x b').io = (plug (node a x b) c).io ∧ Shape h' (node a' x b') F ∧
        (∀ k, k ∉ (plug (node a x b) c).io → h'.get k = h.get k) ∧ SameVal h h' x ∧
        Good E h' w a' [] ∧ Good E h' w b' [] ∧
        whileLoop (fun h => do let r ← isRoot h x; .ok (!r)) (fun h => splayStep h x) fuel (E.h h) = .ok (E.h h') := by
  intro n
  induction n with
  | zero =>
    intro c fuel h a b hc hs hn hr hh ha hb hf
    obtain ⟨fuel, rfl⟩ : ∃ k, fuel = k + 1 := ⟨fuel - 1, by omega⟩
    have : c = [] := by cases c <;> simp_all
    subst this
    have hroot := isRoot_ctx hs hr
    exact ⟨h, a, b, by simp [whileLoop, hroot], rfl, rfl, hs, by simp, by simp [SameVal], ha, hb,
      by simp [whileLoop, isRoot_sim, hroot]⟩
  | succ n ih =>
    intro c fuel h a b hc hs hn hr hh ha hb hf
    obtain ⟨fuel, rfl⟩ : ∃ k, fuel = k + 1 := ⟨fuel - 1, by omega⟩
    have hroot := isRoot_ctx hs hr
    have hx1 : x < h.size := hs.lt (by rw [mem_plug]; simp)
    have hxc := fun d y s hm => (@disj_of_plug c _ hn x (by simp) d y s hm).1
    cases c with
    | nil =>
      exact ⟨h, a, b, by simp [whileLoop, hroot], rfl, rfl, hs, by simp, by simp [SameVal], ha, hb,
      by simp [whileLoop, isRoot_sim, hroot]⟩
    | cons fr c =>
      obtain ⟨d, y, s⟩ := fr
      have hfa : (h.get x).fa = some y := (shape_plug.1 hs).1.2.1
      -- it suffices to describe one step
      suffices H : ∃ h1 a1 b1 c1, splayStep h x = .ok h1 ∧ h1.size = h.size ∧
          c1.length ≤ c.length ∧
          (plug (node a1 x b1) c1).io = (plug (node a x b) ((d, y, s) :: c)).io ∧
          Shape h1 (plug (node a1 x b1) c1) F ∧ RootOK h1 (plug (node a1 x b1) c1) F ∧
          Hang E h1 w c1 ∧ Good E h1 w a1 [] ∧ Good E h1 w b1 [] ∧
          (∀ k, k ∉ (plug (node a x b) ((d, y, s) :: c)).io → h1.get k = h.get k) ∧ SameVal h h1 x ∧
          splayStep (E.h h) x = .ok (E.h h1) by
        obtain ⟨h1, a1, b1, c1, s1, s2, s3, s4, s5, s6, s7, s8, s9, s10, s11, s12⟩ := H
        simp only [List.length_cons] at hc hf
        obtain ⟨h2, a2, b2, t1, t2, t3, t4, t5, t6, t7, t8, t9⟩ := ih c1 fuel h1 a1 b1 (by omega) s5
          (by rw [s4]; exact hn) s6 s7 s8 s9 (by omega)
        refine ⟨h2, a2, b2, ?_, by omega, by rw [t3, s4], t4, ?_, ?_, t7, t8,
          by simp [whileLoop, isRoot_sim, hroot, s12, t9]⟩
        · simp [whileLoop, hroot, s1, t1]
        · intro k hk; rw [t5 k (by rwa [s4]), s10 k hk]
        · exact s11.trans' t6
      -- the parent in focus
      have hfocus : ∀ d y s, plug (node a x b) ((d, y, s) :: c) = plug (nd d (node a x b) y s) c :=
        fun _ _ _ => rfl
      obtain ⟨py, qy, hpy⟩ : ∃ p q, nd d (node a x b) y s = node p y q := by
        cases d <;> exact ⟨_, _, rfl⟩
      have hrooty : isRoot h y = .ok c.isEmpty := by
        apply isRoot_ctx (a := py) (b := qy) (F := F)
        · rw [← hpy]; exact hs
        · rw [← hpy]; exact hr
      have hdx : dir h x = .ok d := dir_ctx (t := node a x b) hs rfl hn
      obtain ⟨hy1, hy2, hy3⟩ := hh d y s (by simp)
      -- orient the node `x`
      have orient : ∀ d : Bool, ∃ ad bd, node a x b = nd d ad x bd ∧ Good E h w ad [] ∧ Good E h w bd [] := by
        intro d
        cases d
        · exact ⟨a, b, rfl, ha, hb⟩
        · exact ⟨b, a, rfl, hb, ha⟩
      have unorient : ∀ (d : Bool) (p q : T) (z : Nat), ∃ a' b', nd d p z q = node a' z b' ∧
          ∀ (h1 : Heap K), Good E h1 w p [] → Good E h1 w q [] → Good E h1 w a' [] ∧ Good E h1 w b' [] := by
        intro d p q z
        cases d
        · exact ⟨p, q, rfl, fun _ h1 h2 => ⟨h1, h2⟩⟩
        · exact ⟨q, p, rfl, fun _ h1 h2 => ⟨h2, h1⟩⟩
      cases c with
      | nil =>
        -- zig
        obtain ⟨ad, bd, hab, had, hbd⟩ := orient d
        rw [hab, plug_cons] at hs hn hr
        obtain ⟨h1, r1, r2, r3, r4, r5, r6, r7, r8, r9⟩ := rot_spec hs hn hr hbd hy3 hy1 hy2
        have hxy : x ≠ y := hxc d y s (by simp)
        obtain ⟨a', b', u1, u2⟩ := unorient d ad (nd d bd y s) x
        have hay : y ∉ ad.io := by
          have := nodup_of_plug hn
          cases d <;> simp [List.nodup_append] at this <;> grind
        have := u2 h1 (had.congr (fun k hk => r7 k (by rintro rfl; exact hay hk)) (fun _ _ => rfl)) r8
        refine ⟨h1, a', b', [], ?_, r2, le_rfl, ?_, ?_, ?_, ?_, this.1, this.2, ?_, r7 x hxy,
          by simp [splayStep, rd_sim, isRoot_sim, Vec.rd_ok hx1, hfa, deref, hrooty, r9]⟩
        · simp [splayStep, Vec.rd_ok hx1, hfa, deref, hrooty, r1]
        · rw [← u1, r4, hab, plug_cons]
        · rw [← u1]; exact r3
        · rw [← u1]; exact r5
        · intro d' y' s' hm; simp at hm
        · rw [hab, plug_cons]; exact r6
      | cons fr2 c =>
        obtain ⟨d2, z, s2⟩ := fr2
        obtain ⟨hz1, hz2, hz3⟩ := hh d2 z s2 (by simp)
        have hdy : dir h y = .ok d2 := dir_ctx (t := nd d (node a x b) y s) hs (by simp) hn
        have hxy : x ≠ y := hxc d y s (by simp)
        have hxz : x ≠ z := hxc d2 z s2 (by simp)
        have hnn : (nd d2 (nd d (node a x b) y s) z s2).io.Nodup := nodup_of_plug (c := c) hn
        have hctx : ∀ k, (∃ d y s, (d, y, s) ∈ c ∧ (k = y ∨ k ∈ s.io)) → k ≠ y ∧ k ≠ z := by
          rintro k ⟨d', y', s', hm, hk⟩
          have h1 := @disj_of_plug c _ hn y (by cases d <;> cases d2 <;> simp) d' y' s' hm
          have h2 := @disj_of_plug c _ hn z (by cases d <;> cases d2 <;> simp) d' y' s' hm
          rcases hk with rfl | hk
          · exact ⟨h1.1.symm, h2.1.symm⟩
          · exact ⟨by rintro rfl; exact h1.2 hk, by rintro rfl; exact h2.2 hk⟩
        have hhc : Hang E h w c := fun d' y' s' hm => hh d' y' s' (by simp [hm])
        by_cases hdd : d = d2
        · -- zig-zig: rotate the parent first
          subst hdd
          obtain ⟨ad, bd, hab, had, hbd⟩ := orient d
          have hyz : y ≠ z := by cases d <;> simp [List.nodup_append] at hnn <;> grind
          have hday : ∀ k, k ∈ ad.io ∨ k ∈ bd.io → k ≠ y ∧ k ≠ z := by
            rw [hab] at hnn
            cases d <;> simp [List.nodup_append] at hnn <;> grind
          have hs' := hs; have hn' := hn; have hr' := hr
          simp only [plug_cons] at hs' hn' hr'
          obtain ⟨h1, r1, r2, r3, r4, r5, r6, r7, r8, r9⟩ := rot_spec hs' hn' hr' hy3 hz3 hz1 hz2
          rw [hab] at r3 r4 r5 r6
          have hnr : (plug (nd d (nd d ad x bd) y (nd d s z s2)) c).io.Nodup := by
            rw [r4, ← hab]; exact hn'
          have hbd1 : Good E h1 w bd [] := hbd.congr (fun k hk => r7 k (hday k (.inr hk)).2) (fun _ _ => rfl)
          have had1 : Good E h1 w ad [] := had.congr (fun k hk => r7 k (hday k (.inl hk)).2) (fun _ _ => rfl)
          have hyv := r7 y hyz
          obtain ⟨h2, q1, q2, q3, q4, q5, q6, q7, q8, q9⟩ := rot_spec r3 hnr r5 hbd1 r8
            ⟨by rw [hyv.1, hy1.1], hy1.2⟩ (by rw [hyv.2.1, hy2])
          obtain ⟨a', b', u1, u2⟩ := unorient d ad (nd d bd y (nd d s z s2)) x
          have := u2 h2 (had1.congr (fun k hk => q7 k (hday k (.inl hk)).1) (fun _ _ => rfl)) q8
          refine ⟨h2, a', b', c, ?_, by omega, by simp, ?_, ?_, ?_, ?_, this.1, this.2, ?_, ?_,
            by simp [splayStep, rd_sim, isRoot_sim, dir_sim, Vec.rd_ok hx1, hfa, deref, hrooty, hdx, hdy, r9, q9]⟩
          · simp [splayStep, Vec.rd_ok hx1, hfa, deref, hrooty, hdx, hdy, r1, q1]
          · rw [← u1, q4, r4, hab, plug_cons, plug_cons]
          · rw [← u1]; exact q3
          · rw [← u1]; exact q5
          · refine hhc.congr fun d' y' s' hm => ⟨?_, fun k hk => ?_⟩
            · have hk' := hctx y' ⟨d', y', s', hm, .inl rfl⟩
              exact (r7 y' hk'.2).trans' (q7 y' hk'.1)
            · have hk' := hctx k ⟨d', y', s', hm, .inr hk⟩
              exact (r7 k hk'.2).trans' (q7 k hk'.1)
          · intro k hk
            simp only [plug_cons] at hk
            rw [q6 k (by rw [r4, ← hab]; exact hk), r6 k (by rw [← hab]; exact hk)]
          · exact (r7 x hxz).trans' (q7 x hxy)
        · -- zig-zag: rotate x twice
          have hd2 : d2 = !d := by cases d <;> cases d2 <;> simp_all
          subst hd2
          obtain ⟨ad, bd, hab, had, hbd⟩ := orient d
          have hyz : y ≠ z := by cases d <;> simp [List.nodup_append] at hnn <;> grind
          have hday : ∀ k, k ∈ ad.io ∨ k ∈ bd.io → k ≠ y ∧ k ≠ z := by
            rw [hab] at hnn
            cases d <;> simp [List.nodup_append] at hnn <;> grind
          have hs2z : ∀ k, k ∈ s2.io → k ≠ y ∧ k ≠ z := by
            cases d <;> simp [List.nodup_append] at hnn <;> grind
          have hs' := hs; have hn' := hn; have hr' := hr
          rw [hab] at hs' hn' hr'
          obtain ⟨h1, r1, r2, r3, r4, r5, r6, r7, r8, r9⟩ := rot_spec
            (c := (!d, z, s2) :: c) hs' hn' hr' hbd hy3 hy1 hy2
          have had1 : Good E h1 w ad [] := had.congr (fun k hk => r7 k (hday k (.inl hk)).1) (fun _ _ => rfl)
          have hnr : (plug (nd d ad x (nd d bd y s)) ((!d, z, s2) :: c)).io.Nodup := by
            rw [r4]; exact hn'
          have hflip : nd d ad x (nd d bd y s) = nd (!d) (nd d bd y s) x ad := by cases d <;> rfl
          have hzv := r7 z hyz.symm
          have r3' := r3; have r5' := r5; have hnr' := hnr
          rw [plug_cons, hflip] at r3' r5' hnr'
          obtain ⟨h2, q1, q2, q3, q4, q5, q6, q7, q8, q9⟩ := rot_spec r3' hnr' r5' had1
            (hz3.congr (fun k hk => r7 k (hs2z k hk).1) (fun _ _ => rfl))
            ⟨by rw [hzv.1, hz1.1], hz1.2⟩ (by rw [hzv.2.1, hz2])
          obtain ⟨a', b', u1, u2⟩ := unorient (!d) (nd d bd y s) (nd (!d) ad z s2) x
          have hzy : z ∉ (nd d bd y s).io := by
            have hs0 : z ∉ s.io := by cases d <;> simp [List.nodup_append] at hnn <;> grind
            rw [mem_io_nd]; rintro (e | e | e)
            · exact hyz e.symm
            · exact (hday z (.inr e)).2 rfl
            · exact hs0 e
          have := u2 h2 (r8.congr (fun k hk => q7 k (by rintro rfl; exact hzy hk)) (fun _ _ => rfl)) q8
          have hne : ¬ (d = !d) := by cases d <;> simp
          refine ⟨h2, a', b', c, ?_, by omega, by simp, ?_, ?_, ?_, ?_, this.1, this.2, ?_, ?_,
            by simp [splayStep, rd_sim, isRoot_sim, dir_sim, Vec.rd_ok hx1, hfa, deref, hrooty, hdx, hdy, r9, q9, hne]⟩
          · simp [splayStep, Vec.rd_ok hx1, hfa, deref, hrooty, hdx, hdy, r1, q1, hne]
          · rw [← u1, q4, ← hflip, hab]; exact r4
          · rw [← u1]; exact q3
          · rw [← u1]; exact q5
          · refine hhc.congr fun d' y' s' hm => ⟨?_, fun k hk => ?_⟩
            · have hk' := hctx y' ⟨d', y', s', hm, .inl rfl⟩
              exact (r7 y' hk'.1).trans' (q7 y' hk'.2)
            · have hk' := hctx k ⟨d', y', s', hm, .inr hk⟩
              exact (r7 k hk'.1).trans' (q7 k hk'.2)
          · intro k hk
            rw [hab] at hk
            rw [q6 k (by rw [← hflip]; rw [← plug_cons, r4]; exact hk), r6 k hk]
          · exact (r7 x hxy).trans' (q7 x hxz)

/-- `splay` brings `x` to the root of its auxiliary tree, keeps the order, and repairs all values. -/
theorem splay_spec {h : Heap K} {w : Nat → K} {t F x fuel} (hx : x ∈ t.io) (hs : Shape h t F)
    (hn : t.io.Nodup) (hr : RootOK h t F) (hg : GoodRoot E h w t) (hf : t.io.length ≤ fuel) :
    ∃ h' a b, splay fuel h x = .ok h' ∧ h'.size = h.size ∧ (node a x b).io = t.io ∧
      Shape h' (node a x b) F ∧ (∀ k, k ∉ t.io → h'.get k = h.get k) ∧
      Good E h' w (node a x b) [] ∧ (h'.get x).add = 0 ∧ splay fuel (E.h h) x = .ok (E.h h') := by
  obtain ⟨a, b, c, rfl⟩ := exists_focus t x hx
  have hlen := length_ctx_lt (node a x b) c
  simp only [io_node, List.length_append, List.length_cons] at hlen
  obtain ⟨h1, e1, e2, e3, e4, e5, e6, e7, e8, e9, e10⟩ :=
    pushDownFromRoot_spec c fuel h a x b hs hn hr hg (by omega)
  have hs1 := hs.congr e2 fun k _ => e3 k
  have hr1 : RootOK h1 (plug (node a x b) c) F := hr.congr e2 (fun _ => Iff.rfl) e4
  obtain ⟨h2, a', b', k1, k2, k3, k4, k5, k6, k7, k8, k9⟩ :=
    splayLoop_spec c.length c fuel h1 a b le_rfl hs1 hn hr1 e5 e8 e9 (by omega)
  have hn2 : (node a' x b').io.Nodup := by rw [k3]; exact hn
  refine ⟨pushUpH h2 x, a', b', ?_, by simp; omega, k3, k4.congr rfl (fun k _ => pushUpH_ptr _ _ _), ?_, ?_, ?_, ?_⟩
  rotate_right
  · unfold splay
    rw [e10, ok_bind, k9, ok_bind, pushUp_simE k4 k7 k8 ⟨by rw [k6.1, e6.1], e6.2⟩]
  · unfold splay
    rw [e1, ok_bind, k1, ok_bind, pushUp_shape k4]
  · intro k hk
    rw [pushUpH_ne _ (by rintro rfl; exact hk hx), k5 k hk, e4 k hk]
  · exact pushUp_good k4 hn2 k7 k8 ⟨by rw [k6.1, e6.1], e6.2⟩ (by rw [k6.2.1, e7])
  · rw [(pushUpH_val _ _ _).2, k6.2.1, e7]

end AHO.LCT
