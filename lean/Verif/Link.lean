import Verif.Model.Define
import Verif.Spec
/-!
# How the arguments of the program stand for objects of the specification
-/

namespace AHO
open Spec

variable {K : Type}

/-- The program terminates normally and returns `r`. `f fuel` is the outcome when every loop may run for at
most `fuel` rounds. If the bound is large enough the outcome is `r`; if it is too small the bound is hit,
and nothing else happens: no undefined behaviour, no failed `assert`, no failing callback. -/
def Returns {α : Type} (f : Nat → Res α) (r : α) : Prop :=
  (∃ N, ∀ fuel, N ≤ fuel → f fuel = .ok r) ∧ ∀ fuel, f fuel = .ok r ∨ f fuel = .error .fuel

/-- The limit `e` of the program stands for the arc `p`: same indices and range, and the callback returns
the costs. Nothing is assumed about calls outside the range. -/
structure OmegaLimit.Is (e : OmegaLimit K) (p : Pair K) : Prop where
  i : e.i = p.i
  j : e.j = p.j
  l : e.l = p.l
  u : e.u = p.u
  fn : ∀ x, p.l ≤ x → x ≤ p.u → e.fn x = .ok (p.B x)

/-- The limit `m` of the program stands for the range `[lo, hi]` with costs `F`. -/
structure MuLimit.Is (m : MuLimit K) (lo hi : Int) (F : Int → K) : Prop where
  l : m.l = lo
  u : m.u = hi
  fn : ∀ x, lo ≤ x → x ≤ hi → m.fn x = .ok (F x)

/-- The arguments `Mus`, `Omegas` of the constructor stand for the problem `P`. Nothing is assumed about
`Mus[0]`. -/
structure Represents (P : Problem K) (Mus : List (MuLimit K)) (Omegas : List (OmegaLimit K)) : Prop where
  len : Mus.length = P.n + 1
  mus : ∀ (i : Nat) (h : i < Mus.length), 1 ≤ i → Mus[i].Is (P.lo i) (P.hi i) (P.F i)
  omegas : List.Forall₂ OmegaLimit.Is Omegas P.pairs

/-- The arguments `n`, `M`, `U`, `limits` of the constructor of `Flow` stand for the network with the arcs `arcs`, whose ranges
are within `R` of zero; `M` bounds the slopes, and `int` is large enough. -/
structure NetInput [Lattice K] [AddCommGroup K] (imax : Int) (n : Nat) (M : K) (U R : Int) (limits : List (OmegaLimit K))
    (arcs : List (Pair K)) : Prop where
  rep : List.Forall₂ OmegaLimit.Is limits arcs
  arcs : ∀ p ∈ arcs, ArcOK n M R p
  M_nonneg : 0 ≤ M
  R_nonneg : 0 ≤ R
  U_pos : 1 ≤ U
  cap : NetCapacity imax n U R

variable {D : Type}

/-- A check of the constructor concerning the limit `o` fails. -/
def BadLimit (n : Nat) (Mus : List (MuLimit D)) (o : OmegaLimit D) : Prop :=
  ¬ (1 ≤ o.i ∧ o.i ≤ n) ∨ ¬ (1 ≤ o.j ∧ o.j ≤ n) ∨ o.i = o.j ∨ o.u < o.l ∨
    ∃ mi mj, Mus[o.i]? = some mi ∧ Mus[o.j]? = some mj ∧ o.u < mi.l - mj.u

/-- The input violates one of the requirements of the constructor that do not concern the costs. -/
def Malformed (n : Nat) (Mus : List (MuLimit D)) (Omegas : List (OmegaLimit D)) : Prop :=
  Mus.length ≠ n + 1 ∨ (∃ i m, 1 ≤ i ∧ i ≤ n ∧ Mus[i]? = some m ∧ m.u < m.l) ∨ ∃ o ∈ Omegas, BadLimit n Mus o

/-- The range of `o` is representable, and its callback can be called on the whole range. -/
structure Callable (imax : Int) (o : OmegaLimit D) : Prop where
  lo : -imax - 1 ≤ o.l
  hi : o.u ≤ imax
  width : o.u - o.l ≤ imax
  fn : ∀ x, o.l ≤ x → x ≤ o.u → ∃ v, o.fn x = .ok v

end AHO
