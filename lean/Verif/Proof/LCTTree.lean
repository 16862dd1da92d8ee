import Verif.Model.LCT
import Verif.Proof.Basic
import Mathlib.Algebra.Order.Group.Defs
import Mathlib.Data.List.Nodup
import Mathlib.Tactic.Abel
/-!
# Auxiliary splay trees: shapes, values, rotations
-/

namespace AHO.LCT
open AHO

/-- Shape of an auxiliary tree. -/
inductive T
  | nil
  | node (l : T) (x : Nat) (r : T)

namespace T

/-- in-order listing (shallow to deep) -/
def io : T → List Nat
  | nil => []
  | node l x r => l.io ++ x :: r.io

/-- root pointer -/
def rt : T → Option Nat
  | nil => none
  | node _ x _ => some x

/-- node with its two children listed in direction `d`: the first is child `d`. -/
def nd (d : Bool) (l : T) (x : Nat) (r : T) : T :=
  if d then node r x l else node l x r

@[simp] theorem io_nil : io nil = [] := rfl
@[simp] theorem io_node (l x r) : io (node l x r) = l.io ++ x :: r.io := rfl
@[simp] theorem rt_nil : rt nil = none := rfl
@[simp] theorem rt_node (l x r) : rt (node l x r) = some x := rfl
@[simp] theorem nd_false (l x r) : nd false l x r = node l x r := rfl
@[simp] theorem nd_true (l x r) : nd true l x r = node r x l := rfl
@[simp] theorem rt_nd (d l x r) : rt (nd d l x r) = some x := by cases d <;> rfl

theorem mem_io_nd {d l x r k} : k ∈ io (nd d l x r) ↔ k = x ∨ k ∈ l.io ∨ k ∈ r.io := by
  cases d <;> simp <;> tauto

theorem rt_mem {t : T} {x : Nat} (h : t.rt = some x) : x ∈ t.io := by
  cases t <;> simp_all

theorem io_eq_nil {t : T} : t.io = [] ↔ t = nil := by
  cases t <;> simp

/-- Plug a tree in a context: a list of frames from the hole upwards. A frame `(d, y, s)` says that
the hole is child `d` of `y`, whose other child is `s`. -/
def plug : T → List (Bool × Nat × T) → T
  | t, [] => t
  | t, (d, y, s) :: c => plug (nd d t y s) c

@[simp] theorem plug_nil (t : T) : plug t [] = t := rfl
@[simp] theorem plug_cons (t : T) (d y s c) : plug t ((d, y, s) :: c) = plug (nd d t y s) c := rfl

theorem io_plug_congr {t t' : T} (h : t.io = t'.io) (c) : (plug t c).io = (plug t' c).io := by
  induction c generalizing t t' with
  | nil => simpa
  | cons fr c ih =>
    obtain ⟨d, y, s⟩ := fr
    simp only [plug_cons]
    apply ih
    cases d <;> simp [h]

theorem mem_plug {t : T} {c : List (Bool × Nat × T)} {k : Nat} :
    k ∈ (plug t c).io ↔ k ∈ t.io ∨ ∃ d y s, (d, y, s) ∈ c ∧ (k = y ∨ k ∈ s.io) := by
  induction c generalizing t with
  | nil => simp
  | cons fr c ih =>
    obtain ⟨d, y, s⟩ := fr
    simp only [plug_cons, ih, mem_io_nd, List.mem_cons]
    constructor
    · rintro ((h | h | h) | ⟨d', y', s', h1, h2⟩)
      · exact .inr ⟨d, y, s, .inl rfl, .inl h⟩
      · exact .inl h
      · exact .inr ⟨d, y, s, .inl rfl, .inr h⟩
      · exact .inr ⟨d', y', s', .inr h1, h2⟩
    · rintro (h | ⟨d', y', s', h1 | h1, h2⟩)
      · exact .inl (.inr (.inl h))
      · cases h1; exact .inl (by tauto)
      · exact .inr ⟨d', y', s', h1, h2⟩

/-- Any node of a tree can be brought in focus. -/
theorem exists_focus (t : T) (x : Nat) (h : x ∈ t.io) :
    ∃ a b c, plug (node a x b) c = t := by
  suffices H : ∀ (t : T), x ∈ t.io → ∀ c0, ∃ a b c, plug (node a x b) c = plug t c0 by
    simpa using H t h []
  intro t
  induction t with
  | nil => simp
  | node l y r ihl ihr =>
    intro h c0
    simp only [io_node, List.mem_append, List.mem_cons] at h
    rcases h with h | h | h
    · simpa using ihl h ((false, y, r) :: c0)
    · subst h; exact ⟨l, r, c0, rfl⟩
    · simpa using ihr h ((true, y, l) :: c0)

theorem length_ctx_lt (t : T) (c : List (Bool × Nat × T)) :
    c.length + t.io.length ≤ (plug t c).io.length := by
  induction c generalizing t with
  | nil => simp
  | cons fr c ih =>
    obtain ⟨d, y, s⟩ := fr
    have := ih (nd d t y s)
    cases d <;> simp at * <;> omega

end T

open T

variable {D : Type}

/-- The heap contains the tree `t`, whose root's stored `fa` is `f`. -/
def Shape (h : Heap D) : T → Option Nat → Prop
  | .nil, _ => True
  | .node l x r, f => x < h.size ∧ (h.get x).fa = f ∧ (h.get x).ch0 = l.rt ∧ (h.get x).ch1 = r.rt ∧
      Shape h l (some x) ∧ Shape h r (some x)

theorem shape_nd {h : Heap D} {d l x r f} : Shape h (nd d l x r) f ↔
    x < h.size ∧ (h.get x).fa = f ∧ LNode.ch (h.get x) d = l.rt ∧ LNode.ch (h.get x) (!d) = r.rt ∧
      Shape h l (some x) ∧ Shape h r (some x) := by
  cases d <;> simp [Shape, LNode.ch]; tauto

/-- The pointers of two heaps agree at `k`. -/
def SamePtr (h h' : Heap D) (k : Nat) : Prop :=
  (h'.get k).fa = (h.get k).fa ∧ (h'.get k).ch0 = (h.get k).ch0 ∧ (h'.get k).ch1 = (h.get k).ch1

theorem Shape.congr {h h' : Heap D} {t f} (hs : Shape h t f) (hsz : h'.size = h.size)
    (hk : ∀ k ∈ t.io, SamePtr h h' k) : Shape h' t f := by
  induction t generalizing f with
  | nil => trivial
  | node l x r ihl ihr =>
    obtain ⟨h1, h2, h3, h4, h5, h6⟩ := hs
    simp only [io_node, List.mem_append, List.mem_cons] at hk
    obtain ⟨k1, k2, k3⟩ := hk x (by simp)
    exact ⟨by omega, by rw [k1, h2], by rw [k2, h3], by rw [k3, h4],
      ihl h5 (fun k hk' => hk k (by simp [hk'])), ihr h6 (fun k hk' => hk k (by simp [hk']))⟩

/-- Changing only the parent pointer of the root. -/
theorem Shape.reparent {h h' : Heap D} {t f f'} (hs : Shape h t f) (hsz : h'.size = h.size)
    (hk : ∀ k ∈ t.io, (t.rt ≠ some k → (h'.get k).fa = (h.get k).fa) ∧
      (h'.get k).ch0 = (h.get k).ch0 ∧ (h'.get k).ch1 = (h.get k).ch1)
    (hf : ∀ x, t.rt = some x → (h'.get x).fa = f') (hn : t.io.Nodup) : Shape h' t f' := by
  cases t with
  | nil => trivial
  | node l x r =>
    obtain ⟨h1, h2, h3, h4, h5, h6⟩ := hs
    have kx := hk x (by simp)
    simp only [io_node, List.nodup_append, List.nodup_cons, List.mem_cons] at hn
    obtain ⟨hn1, ⟨hn2, hn3⟩, hn4⟩ := hn
    refine ⟨by omega, hf x rfl, by rw [kx.2.1, h3], by rw [kx.2.2, h4], ?_, ?_⟩
    · refine h5.congr hsz fun k hk' => ?_
      have := hk k (by simp [hk'])
      exact ⟨this.1 (by simp; exact fun e => hn4 k hk' x (.inl rfl) e.symm), this.2⟩
    · refine h6.congr hsz fun k hk' => ?_
      have := hk k (by simp [hk'])
      exact ⟨this.1 (by simp; rintro rfl; exact hn2 hk'), this.2⟩

theorem Shape.lt {h : Heap D} {t f k} (hs : Shape h t f) (hk : k ∈ t.io) : k < h.size := by
  induction t generalizing f with
  | nil => simp at hk
  | node l x r ihl ihr =>
    obtain ⟨h1, h2, h3, h4, h5, h6⟩ := hs
    simp only [io_node, List.mem_append, List.mem_cons] at hk
    rcases hk with hk | hk | hk
    · exact ihl h5 hk
    · exact hk ▸ h1
    · exact ihr h6 hk

/-- Parent pointer of the hole of a context. -/
def ctxPar : List (Bool × Nat × T) → Option Nat → Option Nat
  | [], F => F
  | (_, y, _) :: _, _ => some y

/-- The heap contains the context. -/
def ShapeC (h : Heap D) : List (Bool × Nat × T) → Option Nat → Option Nat → Prop
  | [], _, _ => True
  | (d, y, s) :: c, F, p => y < h.size ∧ (h.get y).fa = ctxPar c F ∧ LNode.ch (h.get y) d = p ∧
      LNode.ch (h.get y) (!d) = s.rt ∧ Shape h s (some y) ∧ ShapeC h c F (some y)

theorem shape_plug {h : Heap D} {t c F} :
    Shape h (plug t c) F ↔ Shape h t (ctxPar c F) ∧ ShapeC h c F t.rt := by
  induction c generalizing t with
  | nil => simp [ctxPar, ShapeC]
  | cons fr c ih =>
    obtain ⟨d, y, s⟩ := fr
    simp only [plug_cons, ih, shape_nd, ShapeC, ctxPar, rt_nd]
    tauto

theorem ShapeC.congr {h h' : Heap D} {c F p} (hs : ShapeC h c F p) (hsz : h'.size = h.size)
    (hk : ∀ d y s, (d, y, s) ∈ c → SamePtr h h' y ∧ ∀ k ∈ s.io, SamePtr h h' k) :
    ShapeC h' c F p := by
  induction c generalizing p with
  | nil => trivial
  | cons fr c ih =>
    obtain ⟨d, y, s⟩ := fr
    obtain ⟨h1, h2, h3, h4, h5, h6⟩ := hs
    obtain ⟨⟨k1, k2, k3⟩, k4⟩ := hk d y s (by simp)
    refine ⟨by omega, by rw [k1, h2], ?_, ?_, h5.congr hsz k4, ih h6 fun d y s hm => hk d y s (by simp [hm])⟩
    · cases d <;> simp_all [LNode.ch]
    · cases d <;> simp_all [LNode.ch]

/-- The parent pointer of an auxiliary root leads to a node of another tree that does not have the
root among its children. -/
def RootOK (h : Heap D) (t : T) (F : Option Nat) : Prop :=
  ∀ g, F = some g → g < h.size ∧ g ∉ t.io ∧
    ∀ z ∈ t.io, (h.get g).ch0 ≠ some z ∧ (h.get g).ch1 ≠ some z

theorem RootOK.congr {h h' : Heap D} {t t' F} (hr : RootOK h t F) (hsz : h'.size = h.size)
    (hio : ∀ k, k ∈ t'.io ↔ k ∈ t.io) (hk : ∀ k, k ∉ t.io → h'.get k = h.get k) :
    RootOK h' t' F := by
  intro g hg
  obtain ⟨h1, h2, h3⟩ := hr g hg
  refine ⟨by omega, by rwa [hio], fun z hz => ?_⟩
  rw [hk g h2]
  exact h3 z ((hio z).1 hz)

/-! ### `is_root`, `d`, `setc` -/

theorem isRoot_ctx {h : Heap D} {a x b c F} (hs : Shape h (plug (node a x b) c) F)
    (hr : RootOK h (plug (node a x b) c) F) :
    isRoot h x = .ok c.isEmpty := by
  rw [shape_plug] at hs
  obtain ⟨⟨h1, h2, -⟩, h3⟩ := hs
  unfold isRoot
  rw [Vec.rd_ok h1]
  simp only [ok_bind, h2]
  cases c with
  | nil =>
    simp only [ctxPar]
    cases F with
    | none => simp
    | some g =>
      obtain ⟨g1, g2, g3⟩ := hr g rfl
      have := g3 x (by simp)
      simp [Vec.rd_ok g1, this.1, this.2]
  | cons fr c =>
    obtain ⟨d, y, s⟩ := fr
    obtain ⟨k1, k2, k3, k4, -⟩ := h3
    simp only [ctxPar, Vec.rd_ok k1, ok_bind]
    cases d <;> simp_all [LNode.ch]

theorem dir_ctx {h : Heap D} {t x d y s c F} (hs : Shape h (plug t ((d, y, s) :: c)) F)
    (hx : t.rt = some x) (hn : (plug t ((d, y, s) :: c)).io.Nodup) :
    dir h x = .ok d := by
  rw [shape_plug] at hs
  obtain ⟨h0, h3⟩ := hs
  have h1 := h0.lt (rt_mem hx)
  obtain ⟨k1, k2, k3, k4, -⟩ := h3
  have h2 : (h.get x).fa = some y := by
    cases t with
    | nil => simp at hx
    | node a x' b => simp at hx; subst hx; exact h0.2.1
  have hxs : s.rt ≠ some x := by
    intro hs
    have m1 := rt_mem hs
    have m2 := rt_mem hx
    have : (nd d t y s).io.Nodup := by
      have : ∀ (c : List (Bool × Nat × T)) t, (plug t c).io.Nodup → t.io.Nodup := by
        intro c
        induction c with
        | nil => simp
        | cons fr c ih =>
          obtain ⟨d, y, s⟩ := fr
          intro t h
          have := ih _ h
          cases d <;> simp [List.nodup_append] at this <;> tauto
      exact this c _ hn
    cases d <;> simp [List.nodup_append] at this <;> grind
  unfold dir
  rw [Vec.rd_ok h1]
  simp only [ok_bind, h2, deref, Vec.rd_ok k1]
  cases d <;> simp_all [LNode.ch]

theorem nodup_of_plug {c : List (Bool × Nat × T)} {t : T} (h : (plug t c).io.Nodup) : t.io.Nodup := by
  induction c generalizing t with
  | nil => simpa using h
  | cons fr c ih =>
    obtain ⟨d, y, s⟩ := fr
    have := ih h
    cases d <;> simp [List.nodup_append] at this <;> tauto

/-- Disjointness of hole and context. -/
theorem disj_of_plug {c : List (Bool × Nat × T)} {t : T} (h : (plug t c).io.Nodup) {k : Nat}
    (hk : k ∈ t.io) {d y s} (hc : (d, y, s) ∈ c) : k ≠ y ∧ k ∉ s.io := by
  induction c generalizing t with
  | nil => simp at hc
  | cons fr c ih =>
    obtain ⟨d', y', s'⟩ := fr
    rw [List.mem_cons] at hc
    rcases hc with hc | hc
    · cases hc
      have := nodup_of_plug (c := c) h
      cases d <;> simp [List.nodup_append] at this <;> grind
    · exact ih h (by rw [mem_io_nd]; tauto) hc

end AHO.LCT
