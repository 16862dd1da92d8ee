import Verif.Model.LCT
import Verif.Proof.Basic
import Mathlib.Algebra.Order.Group.Defs
/-!
# Running the link-cut tree with inexact additions

`Emb K R` relates the exact data type `K` to a type `R` whose addition agrees with the one of `K` only as
long as the values stay in a given set; likewise for the comparisons. Everything in the link-cut tree that
neither adds nor compares commutes with the embedding; the rest is dealt with in `LCTSplay`.
-/

namespace AHO

/-- the values of `R` that stand for values of `K` -/
structure Emb (K R : Type) [AddCommGroup K] [LinearOrder K] [Add R] [Zero R] [BEq R] [LT R] [LE R] where
  e : K → R
  /-- the values for which `+` and the comparisons are exact -/
  I : K → Prop
  le : ∀ a b, I a → I b → (e a ≤ e b ↔ a ≤ b)
  lt : ∀ a b, I a → I b → (e a < e b ↔ a < b)
  beq : ∀ v a, I v → I (v + a) → (e a == 0) = decide (a = 0)
  zero : e 0 = 0
  add : ∀ v t, I v → I (v + t) → e (v + t) = e v + e t
  tag : ∀ v s t, I (v - s) → I v → I (v + t) → e (s + t) = e s + e t

/-- exact arithmetic -/
def Emb.id (K : Type) [AddCommGroup K] [LinearOrder K] : Emb K K where
  e := fun x => x
  I := fun _ => True
  le := fun _ _ _ _ => Iff.rfl
  lt := fun _ _ _ _ => Iff.rfl
  beq := fun _ _ _ _ => rfl
  zero := rfl
  add := fun _ _ _ _ => rfl
  tag := fun _ _ _ _ _ _ => rfl

/-! ### Rules for `Except.map` -/

@[simp] theorem map_ok {α β : Type} (f : α → β) (a : α) : (Except.ok a : Res α).map f = .ok (f a) := rfl
@[simp] theorem map_error {α β : Type} (f : α → β) (e : Err) :
    (Except.error e : Res α).map f = .error e := rfl

theorem sim_bind {α α' β β' : Type} {r : Res α} {r' : Res α'} {f : α → α'} {k : α → Res β} {k' : α' → Res β'}
    {g : β → β'} (h1 : r' = r.map f) (h2 : ∀ a, r = .ok a → k' (f a) = (k a).map g) :
    (r' >>= k') = (r >>= k).map g := by
  subst h1
  cases r with
  | error e => rfl
  | ok a => exact h2 a rfl

/-- the same value is read on both sides -/
theorem sim_bind' {α β β' : Type} {r r' : Res α} {k : α → Res β} {k' : α → Res β'}
    {g : β → β'} (h1 : r' = r) (h2 : ∀ a, r = .ok a → k' a = (k a).map g) :
    (r' >>= k') = (r >>= k).map g := by
  subst h1
  cases r' with
  | error e => rfl
  | ok a => exact h2 a rfl

theorem sim_map {α β : Type} {r : Res α} {r' : Res β} {f : α → β} (h : r' = r.map f) {a : α}
    (ha : r = .ok a) : r' = .ok (f a) := by rw [h, ha]; rfl

theorem whileLoop_sim {σ τ : Type} {cond : σ → Res Bool} {cond' : τ → Res Bool} {body : σ → Res σ}
    {body' : τ → Res τ} (f : σ → τ) (P : σ → Prop)
    (h1 : ∀ s, P s → cond' (f s) = cond s)
    (h2 : ∀ s, P s → cond s = .ok true → body' (f s) = (body s).map f)
    (h3 : ∀ s s', P s → cond s = .ok true → body s = .ok s' → P s') :
    ∀ (fuel : Nat) (s : σ), P s → whileLoop cond' body' fuel (f s) = (whileLoop cond body fuel s).map f := by
  intro fuel
  induction fuel with
  | zero => intro s _; rfl
  | succ fuel ih =>
    intro s hs
    unfold whileLoop
    refine sim_bind' (h1 s hs) fun b hb => ?_
    cases b with
    | false => rfl
    | true =>
      simp only [if_true]
      exact sim_bind (h2 s hs hb) fun s' hs' => ih s' (h3 s s' hs hb hs')

theorem forRange_sim {σ τ : Type} {body : σ → Nat → Res σ} {body' : τ → Nat → Res τ} (f : σ → τ)
    (P : σ → Nat → Prop) {hi : Nat}
    (h2 : ∀ s i, P s i → i < hi → body' (f s) i = (body s i).map f)
    (h3 : ∀ s i s', P s i → i < hi → body s i = .ok s' → P s' (i + 1)) :
    ∀ (cnt lo : Nat) (s : σ), P s lo → lo + cnt = hi →
      forRange body' lo cnt (f s) = (forRange body lo cnt s).map f := by
  intro cnt
  induction cnt with
  | zero => intro lo s _ _; rfl
  | succ cnt ih =>
    intro lo s hs h
    unfold forRange
    exact sim_bind (h2 s lo hs (by omega)) fun s' hs' => ih (lo + 1) s' (h3 s lo s' hs (by omega) hs') (by omega)

/-! ### Vectors -/

namespace Vec
variable {α β : Type}

/-- apply a function to all entries -/
def map (f : α → β) (v : Vec α) : Vec β := ⟨v.size, fun k => f (v.get k)⟩

@[simp] theorem map_size (f : α → β) (v : Vec α) : (v.map f).size = v.size := rfl
@[simp] theorem map_get (f : α → β) (v : Vec α) (k : Nat) : (v.map f).get k = f (v.get k) := rfl

theorem map_rd (f : α → β) (v : Vec α) (k : Nat) : (v.map f).rd k = (v.rd k).map f := by
  by_cases h : k < v.size <;> simp [rd, h]

theorem map_set (f : α → β) (v : Vec α) (k : Nat) (x : α) : (v.map f).set k (f x) = (v.set k x).map f := by
  ext j
  · rfl
  · simp only [set_get, map_get]; split <;> rfl

theorem map_wr (f : α → β) (v : Vec α) (k : Nat) (x : α) : (v.map f).wr k (f x) = (v.wr k x).map (map f) := by
  by_cases h : k < v.size <;> simp [wr, h, map_set]

theorem map_id (v : Vec α) : v.map (fun x => x) = v := rfl

end Vec

namespace LCT
variable {K R : Type} [AddCommGroup K] [LinearOrder K] [Add R] [Zero R] [BEq R] [LT R] [LE R]
  [DecidableLT R] [DecidableLE R] (E : Emb K R)

/-- a node over `R` -/
def _root_.AHO.Emb.n (n : LNode K) : LNode R :=
  { fa := n.fa, ch0 := n.ch0, ch1 := n.ch1, minV := E.e n.minV, minP := n.minP, val := E.e n.val,
    add := E.e n.add }

/-- the nodes over `R` -/
def _root_.AHO.Emb.h (h : Heap K) : Heap R := h.map E.n

/-- a pair of a value and a node over `R` -/
def _root_.AHO.Emb.p (m : K × Option Nat) : R × Option Nat := (E.e m.1, m.2)

omit [DecidableLT R] [DecidableLE R] in
@[simp] theorem emb_fa (n : LNode K) : (E.n n).fa = n.fa := rfl
omit [DecidableLT R] [DecidableLE R] in
@[simp] theorem emb_ch0 (n : LNode K) : (E.n n).ch0 = n.ch0 := rfl
omit [DecidableLT R] [DecidableLE R] in
@[simp] theorem emb_ch1 (n : LNode K) : (E.n n).ch1 = n.ch1 := rfl
omit [DecidableLT R] [DecidableLE R] in
@[simp] theorem emb_val (n : LNode K) : (E.n n).val = E.e n.val := rfl
omit [DecidableLT R] [DecidableLE R] in
@[simp] theorem emb_add (n : LNode K) : (E.n n).add = E.e n.add := rfl
omit [DecidableLT R] [DecidableLE R] in
@[simp] theorem emb_minV (n : LNode K) : (E.n n).minV = E.e n.minV := rfl
omit [DecidableLT R] [DecidableLE R] in
@[simp] theorem emb_minP (n : LNode K) : (E.n n).minP = n.minP := rfl

omit [DecidableLT R] [DecidableLE R] in
theorem rd_sim (h : Heap K) (x : Nat) : (E.h h).rd x = (h.rd x).map E.n := Vec.map_rd _ _ _

omit [DecidableLT R] [DecidableLE R] in
theorem wr_sim (h : Heap K) (x : Nat) (n : LNode K) {n' : LNode R} (e : n' = E.n n) :
    (E.h h).wr x n' = (h.wr x n).map E.h := by rw [e]; exact Vec.map_wr _ _ _ _

omit [DecidableLT R] [DecidableLE R] in
theorem setc_sim (h : Heap K) (x p d) : setc (E.h h) x p d = (setc h x p d).map E.h := by
  unfold setc
  refine sim_bind (rd_sim E h x) fun n _ => ?_
  refine sim_bind (wr_sim E h x _ ?_) fun h1 _ => ?_
  · cases d <;> rfl
  · cases p with
    | none => rfl
    | some c => exact sim_bind (rd_sim E h1 c) fun nc _ => wr_sim E h1 c _ rfl

omit [DecidableLT R] [DecidableLE R] in
theorem dir_sim (h : Heap K) (x) : dir (E.h h) x = dir h x := by
  unfold dir
  have := sim_bind (g := fun x : Bool => x) (k := fun n : LNode K => do
    let f ← deref n.fa
    let nf ← h.rd f
    .ok (decide (nf.ch1 = some x))) (k' := fun n : LNode R => do
    let f ← deref n.fa
    let nf ← (E.h h).rd f
    .ok (decide (nf.ch1 = some x))) (rd_sim E h x) fun n _ => by
      refine sim_bind' (by rfl) fun f _ => ?_
      exact sim_bind (rd_sim E h f) fun nf _ => rfl
  rw [this]
  generalize (h.rd x >>= fun n => deref n.fa >>= fun f => h.rd f >>= fun nf => _) = z
  cases z <;> rfl

theorem map_id' {α : Type} (z : Res α) : z.map (fun x => x) = z := by cases z <;> rfl

omit [DecidableLT R] [DecidableLE R] in
theorem isRoot_sim (h : Heap K) (x) : isRoot (E.h h) x = isRoot h x := by
  rw [← map_id' (isRoot h x)]
  unfold isRoot
  refine sim_bind (rd_sim E h x) fun n _ => ?_
  simp only [emb_fa]
  cases n.fa with
  | none => rfl
  | some f => exact sim_bind (rd_sim E h f) fun nf _ => rfl

theorem pushUp_sim {h : Heap K} {x} (hv : E.I (h.get x).val) (h0 : ∀ c, (h.get x).ch0 = some c → E.I (h.get c).minV)
    (h1 : ∀ c, (h.get x).ch1 = some c → E.I (h.get c).minV) : pushUp (E.h h) x = (pushUp h x).map E.h := by
  unfold pushUp
  have inv : ∀ {k : Nat} {n : LNode K}, h.rd k = .ok n → h.get k = n := by
    intro k n hn
    unfold Vec.rd at hn
    split at hn
    · cases hn; rfl
    · cases hn
  refine sim_bind (rd_sim E h x) fun n hn => ?_
  rw [inv hn] at hv h0 h1
  obtain ⟨fa, ch0, ch1, minV, minP, val, add⟩ := n
  simp only at hv h0 h1
  have right : ∀ (m1 : K × Option Nat) (nc : LNode K), E.I m1.1 → E.I nc.minV →
      (.ok (if (E.n nc).minV < (E.p m1).1 then ((E.n nc).minV, (E.n nc).minP) else E.p m1) :
        Res (R × Option Nat)) =
      (Except.ok (if nc.minV < m1.1 then (nc.minV, nc.minP) else m1) : Res _).map E.p := by
    intro m1 nc i1 i2
    simp only [emb_minV, Emb.p, E.lt _ _ i2 i1, emb_minP, map_ok]
    split <;> rfl
  cases ch0 with
  | none =>
    refine sim_bind (f := E.p) rfl fun m1 e1 => ?_
    cases e1
    cases ch1 with
    | none => exact sim_bind (f := E.p) rfl fun m2 _ => wr_sim E h x _ rfl
    | some c =>
      refine sim_bind (rd_sim E h c) fun nc hc => ?_
      exact sim_bind (right _ nc hv (inv hc ▸ h1 c rfl)) fun m2 _ => wr_sim E h x _ rfl
  | some c =>
    refine sim_bind (rd_sim E h c) fun nc hc => ?_
    have ic := inv hc ▸ h0 c rfl
    refine sim_bind (f := E.p) ?_ fun m1 e1 => ?_
    · simp only [emb_minV, emb_val, E.le _ _ ic hv, emb_minP, map_ok]
      split <;> rfl
    have i1 : E.I m1.1 := by
      cases e1
      split
      · exact ic
      · exact hv
    cases ch1 with
    | none => exact sim_bind (f := E.p) rfl fun m2 _ => wr_sim E h x _ rfl
    | some c =>
      refine sim_bind (rd_sim E h c) fun nc hc => ?_
      exact sim_bind (right m1 nc i1 (inv hc ▸ h1 c rfl)) fun m2 _ => wr_sim E h x _ rfl

omit [DecidableLT R] [DecidableLE R] in
theorem leftmost_sim (h : Heap K) : ∀ fuel x, leftmost (E.h h) fuel x = leftmost h fuel x := by
  intro fuel
  induction fuel with
  | zero => intro x; rfl
  | succ fuel ih =>
    intro x
    rw [← map_id' (leftmost h (fuel + 1) x)]
    unfold leftmost
    refine sim_bind (rd_sim E h x) fun n _ => ?_
    simp only [emb_ch0, map_id']
    cases n.ch0 with
    | none => rfl
    | some c => exact ih c

end LCT
end AHO
