import Verif.Model.Generator
import Verif.Proof.Lcg
import Mathlib.Data.Nat.Bitwise
import Mathlib.Data.List.Basic
import Mathlib.Tactic.Linarith
/-!
# The generator of the random tests
-/

namespace AHO
namespace Gen
variable {α β : Type} {T : Prop}

/-- The computation `x` from state `s` ends with `post`, or the bound of a loop is reached; the latter not if `T`. -/
def Safe (T : Prop) (x : Gen α) (s : State) (post : α → State → Prop) : Prop :=
  match x s with
  | .ok (a, s') => post a s'
  | .error e => e = .fuel ∧ ¬ T

theorem Safe.bind {x : Gen α} {f : α → Gen β} {s : State} {q : α → State → Prop} {post : β → State → Prop} (h : Safe T x s q)
    (h2 : ∀ a s', q a s' → Safe T (f a) s' post) : Safe T (x >>= f) s post := by
  unfold Safe at h ⊢
  show match (x s >>= fun p => f p.1 p.2 : Res (β × State)) with
    | .ok (a, s') => post a s'
    | .error e => e = .fuel ∧ ¬ T
  cases hx : x s with
  | error e => rw [hx] at h; exact h
  | ok p =>
    rw [hx] at h
    exact h2 p.1 p.2 h

theorem Safe.pure {a : α} {s : State} {post : α → State → Prop} (h : post a s) : Safe T (pure a) s post := h

theorem Safe.fuel {s : State} {post : α → State → Prop} (h : ¬ T) : Safe T (throw .fuel : Gen α) s post := by
  show Err.fuel = .fuel ∧ ¬ T
  exact ⟨rfl, h⟩

/-- add that the bound is not reached -/
theorem Safe.total {x : Gen α} {s : State} {post : α → State → Prop} (h : Safe False x s post) (h2 : T → ∃ r, x s = .ok r) : Safe T x s post := by
  unfold Safe at h ⊢
  split at h
  · exact h
  · rename_i e he
    refine ⟨h.1, fun hT => ?_⟩
    obtain ⟨r, hr⟩ := h2 hT
    rw [hr] at he
    cases he

theorem Safe.mono {x : Gen α} {s : State} {p q : α → State → Prop} (h : Safe T x s p) (h2 : ∀ a s', p a s' → q a s') : Safe T x s q := by
  unfold Safe at h ⊢
  split at h
  · exact h2 _ _ h
  · exact h

/-- a step that does not touch the globals -/
theorem Safe.lift {r : Res α} {a : α} {s : State} {post : α → State → Prop} (h : r = .ok a) (h2 : post a s) : Safe T (r : Gen α) s post := by
  subst h; exact h2

theorem int_safe {x : Int} {s : State} (h1 : -2 ^ 31 ≤ x) (h2 : x ≤ 2 ^ 31 - 1) : Safe T (int x) s fun y s' => y = x ∧ s' = s := by
  refine Safe.lift (a := x) ?_ ⟨rfl, rfl⟩
  unfold ck intMax
  rw [if_pos (by omega)]

theorem nextBits_safe {bits : Nat} (hb : bits ≤ 48) {s : State} : Safe T (nextBits bits) s fun x s' => x < 2 ^ bits ∧ s'.funs = s.funs := by
  refine ⟨?_, rfl⟩
  rw [Nat.div_lt_iff_lt_mul (by positivity), ← pow_add, Nat.add_sub_cancel' hb]
  exact Nat.mod_lt _ (by positivity)

theorem nextBits63_safe {s : State} : Safe T nextBits63 s fun x s' => x < 2 ^ 63 ∧ s'.funs = s.funs := by
  refine (nextBits_safe (by norm_num)).bind fun a s1 h1 => ?_
  refine (nextBits_safe (by norm_num)).bind fun b s2 h2 => ?_
  refine Safe.pure ⟨Nat.xor_lt_two_pow ?_ (h2.1.trans (by norm_num)), h2.2.trans h1.2⟩
  have := h1.1
  omega

theorem reject_safe {draw : Gen Nat} {limit : Nat} (hd : ∀ s, Safe False draw s fun _ s' => s'.funs = s.funs) :
    ∀ (fuel : Nat) (s : State), Safe False (reject draw limit fuel) s fun x s' => x < limit ∧ s'.funs = s.funs := by
  intro fuel
  induction fuel with
  | zero => intro s; exact Safe.fuel id
  | succ fuel ih =>
    intro s
    unfold reject
    refine (hd s).bind fun a s1 h1 => ?_
    split
    · exact (ih s1).mono fun b s2 h => ⟨h.1, h.2.trans h1⟩
    · exact Safe.pure ⟨by omega, h1⟩

theorem bind_at {x : Gen α} {f : α → Gen β} {s s' : State} {a : α} (h : x s = .ok (a, s')) : (x >>= f) s = f a s' := by
  show (x s >>= fun p => f p.1 p.2 : Res (β × State)) = _
  rw [h]
  rfl

theorem pure_at {a : α} {s : State} : (pure a : Gen α) s = .ok (a, s) := rfl

theorem nextBits31_at (s : State) : nextBits 31 s = .ok (step s.seed / 2 ^ 17, { s with seed := step s.seed }) := by
  unfold nextBits step
  norm_num only

/-- `reject` ends at the first number below the limit -/
theorem reject_at {limit : Nat} : ∀ (K fuel : Nat) (s : State), K < fuel → step^[K + 1] s.seed / 2 ^ 17 < limit →
    ∃ r ≤ K, reject (nextBits 31) limit fuel s = .ok (step^[r + 1] s.seed / 2 ^ 17, { s with seed := step^[r + 1] s.seed }) := by
  intro K
  induction K with
  | zero =>
    intro fuel s hf h
    obtain ⟨fuel, rfl⟩ : ∃ k, fuel = k + 1 := ⟨fuel - 1, by omega⟩
    refine ⟨0, le_rfl, ?_⟩
    unfold reject
    rw [bind_at (nextBits31_at s), if_neg (by rw [Function.iterate_succ_apply, Function.iterate_zero_apply] at h; omega), Nat.zero_add, Function.iterate_one, pure_at]
  | succ K ih =>
    intro fuel s hf h
    obtain ⟨fuel, rfl⟩ : ∃ k, fuel = k + 1 := ⟨fuel - 1, by omega⟩
    unfold reject
    rw [bind_at (nextBits31_at s)]
    by_cases hl : limit ≤ step s.seed / 2 ^ 17
    · rw [if_pos hl]
      obtain ⟨r, hr, e⟩ := ih fuel { s with seed := step s.seed } (by omega) (by rw [← Function.iterate_succ_apply]; exact h)
      refine ⟨r + 1, by omega, ?_⟩
      rw [e, Function.iterate_succ_apply step (r + 1)]
    · rw [if_neg hl]
      exact ⟨0, by omega, by rw [Nat.zero_add, Function.iterate_one, pure_at]⟩

/-- `next(n)` uses this number -/
def acc (n : Int) (bits : Nat) : Prop := 2 ^ Nat.log2 n.toNat = n.toNat ∨ bits < (2 ^ 31 - 1) / n.toNat * n.toNat

instance : Decidable (acc n bits) := inferInstanceAs (Decidable (_ ∨ _))

/-- what `next(n)` makes of it -/
def val (n : Int) (bits : Nat) : Int :=
  if 2 ^ Nat.log2 n.toNat = n.toNat then ((n.toNat * bits / 2 ^ 31 : Nat) : Int) else ((bits % n.toNat : Nat) : Int)

theorem nextInt_at {n : Int} (hn : 0 < n) {K fuel : Nat} {s : State} (hf : K < fuel) (h : acc n (step^[K + 1] s.seed / 2 ^ 17)) :
    ∃ r ≤ K, nextInt fuel n s = .ok (val n (step^[r + 1] s.seed / 2 ^ 17), { s with seed := step^[r + 1] s.seed }) := by
  unfold nextInt
  rw [if_neg (by omega)]
  unfold val
  by_cases hp : 2 ^ Nat.log2 n.toNat = n.toNat
  · refine ⟨0, by omega, ?_⟩
    rw [if_pos hp, if_pos hp, bind_at (nextBits31_at s), Nat.zero_add, Function.iterate_one, pure_at]
  · obtain ⟨r, hr, e⟩ := reject_at K fuel s hf (h.resolve_left hp)
    refine ⟨r, hr, ?_⟩
    rw [if_neg hp, if_neg hp, bind_at e, pure_at]

theorem acc_zero {n : Int} (hn : 0 < n) (hn' : n ≤ 2 ^ 31 - 1) : acc n 0 := by
  right
  have : 0 < n.toNat := by omega
  exact Nat.mul_pos (Nat.div_pos (by omega) this) this

theorem nextInt_ends {fuel : Nat} {n : Int} (hn : 0 < n) (hn' : n ≤ 2 ^ 31 - 1) (hf : 2 ^ 50 ≤ fuel) (s : State) : ∃ r, nextInt fuel n s = .ok r := by
  obtain ⟨k, hk, e⟩ := reaches s.seed (y := 0) (by norm_num)
  obtain ⟨r, -, h⟩ := nextInt_at hn (K := k) (fuel := fuel) (s := s) (by omega) (by rw [e]; exact acc_zero hn hn')
  exact ⟨_, h⟩

theorem nextBits32_at (s : State) : nextBits 32 s = .ok (step s.seed / 2 ^ 16, { s with seed := step s.seed }) := by
  unfold nextBits step
  norm_num only

theorem nextBits63_at (s : State) : nextBits63 s = .ok ((step s.seed / 2 ^ 17) * 2 ^ 32 ^^^ step (step s.seed) / 2 ^ 16, { s with seed := step (step s.seed) }) := by
  unfold nextBits63
  rw [bind_at (nextBits31_at s), bind_at (nextBits32_at _), pure_at]

theorem reject63_ends {limit : Nat} (hl : 2 ^ 62 ≤ limit) : ∀ (K fuel : Nat) (s : State), K < fuel → step^[2 * K + 1] s.seed < 2 ^ 47 →
    ∃ r, reject nextBits63 limit fuel s = .ok r := by
  intro K
  induction K with
  | zero =>
    intro fuel s hf h
    obtain ⟨fuel, rfl⟩ : ∃ k, fuel = k + 1 := ⟨fuel - 1, by omega⟩
    unfold reject
    rw [bind_at (nextBits63_at s), if_neg]
    · exact ⟨_, rfl⟩
    · rw [not_le]
      refine lt_of_lt_of_le (Nat.xor_lt_two_pow (n := 62) ?_ ?_) hl
      · have h' : step s.seed < 2 ^ 47 := by
          rw [Nat.mul_zero, Nat.zero_add, Function.iterate_one] at h
          exact h
        omega
      · have := step_lt (step s.seed)
        omega
  | succ K ih =>
    intro fuel s hf h
    obtain ⟨fuel, rfl⟩ : ∃ k, fuel = k + 1 := ⟨fuel - 1, by omega⟩
    unfold reject
    rw [bind_at (nextBits63_at s)]
    split
    · exact ih fuel _ (by omega) (by
        rw [show 2 * (K + 1) + 1 = 2 * K + 1 + 1 + 1 by ring, Function.iterate_succ_apply, Function.iterate_succ_apply] at h
        exact h)
    · exact ⟨_, rfl⟩

theorem nextLong_ends {fuel : Nat} {n : Int} (hn : 0 < n) (hn' : n ≤ 2 ^ 32) (hf : 2 ^ 50 ≤ fuel) (s : State) : ∃ r, nextLong fuel n s = .ok r := by
  have hlim : 2 ^ 62 ≤ (2 ^ 63 - 1) / n.toNat * n.toNat := by
    have h1 := Nat.div_add_mod (2 ^ 63 - 1) n.toNat
    have h2 := Nat.mod_lt (2 ^ 63 - 1) (show 0 < n.toNat by omega)
    rw [mul_comm] at h1
    omega
  obtain ⟨k, hk, e⟩ := reaches s.seed (y := (s.seed + 1) % 2) (by omega)
  have h2 := iterate_mod_two s.seed (k + 1)
  rw [e] at h2
  obtain ⟨K, rfl⟩ : ∃ K, k = 2 * K := ⟨k / 2, by omega⟩
  obtain ⟨r, hr⟩ := reject63_ends hlim K fuel s (by omega) (by rw [e]; omega)
  unfold nextLong
  rw [if_neg (by omega), bind_at hr]
  exact ⟨_, rfl⟩

theorem nextInt_safe {fuel : Nat} {n : Int} (hn : 0 < n) (hn' : n ≤ 2 ^ 31 - 1) (hF : T → 2 ^ 50 ≤ fuel) {s : State} :
    Safe T (nextInt fuel n) s fun x s' => (0 ≤ x ∧ x < n) ∧ s'.funs = s.funs := by
  refine Safe.total ?_ fun hT => nextInt_ends hn hn' (hF hT) s
  unfold nextInt
  rw [if_neg (by omega)]
  split
  · refine (nextBits_safe (by norm_num)).bind fun a s1 h1 => Safe.pure ⟨⟨by positivity, ?_⟩, h1.2⟩
    have : n.toNat * a / 2 ^ 31 < n.toNat := by
      rw [Nat.div_lt_iff_lt_mul (by positivity)]
      exact Nat.mul_lt_mul_of_pos_left h1.1 (by omega)
    omega
  · refine (reject_safe (fun s => (nextBits_safe (by norm_num)).mono fun _ _ h => h.2) _ _).bind fun a s1 h1 => Safe.pure ⟨⟨by positivity, ?_⟩, h1.2⟩
    have := Nat.mod_lt a (show 0 < n.toNat by omega)
    omega

theorem nextLong_safe {fuel : Nat} {n : Int} (hn : 0 < n) (hn' : n ≤ 2 ^ 32) (hF : T → 2 ^ 50 ≤ fuel) {s : State} :
    Safe T (nextLong fuel n) s fun x s' => (0 ≤ x ∧ x < n) ∧ s'.funs = s.funs := by
  refine Safe.total ?_ fun hT => nextLong_ends hn hn' (hF hT) s
  unfold nextLong
  rw [if_neg (by omega)]
  refine (reject_safe (fun s => nextBits63_safe.mono fun _ _ h => h.2) _ _).bind fun a s1 h1 => Safe.pure ⟨⟨by positivity, ?_⟩, h1.2⟩
  have := Nat.mod_lt a (show 0 < n.toNat by omega)
  omega

theorem nextIn_safe {fuel : Nat} {lo hi : Int} (h : lo ≤ hi) (h' : hi - lo < 2 ^ 32) (hF : T → 2 ^ 50 ≤ fuel) {s : State} :
    Safe T (nextIn fuel lo hi) s fun x s' => (lo ≤ x ∧ x ≤ hi) ∧ s'.funs = s.funs := by
  refine (nextLong_safe (by omega) (by omega) hF).bind fun a s1 h1 => Safe.pure ⟨⟨by omega, by omega⟩, h1.2⟩

/-! ### Edges -/

theorem swap_perm {l : List α} {i j : Nat} (hi : i < l.length) (hj : j < l.length) : ∃ l', swap l i j = .ok l' ∧ l'.Perm l := by
  unfold swap listRd
  rw [List.getElem?_eq_getElem hi, List.getElem?_eq_getElem hj]
  refine ⟨_, rfl, ?_⟩
  have := Array.swap_perm (xs := l.toArray) (i := i) (j := j) (by simpa using hi) (by simpa using hj)
  have h2 := this.toList
  simpa [Array.swap] using h2

theorem shuffleFrom_safe {fuel : Nat} (hF : T → 2 ^ 50 ≤ fuel) : ∀ (cnt i : Nat) (l : List α) (s : State), i + cnt ≤ max l.length i → l.length ≤ 2 ^ 31 - 1 →
    Safe T (shuffleFrom fuel cnt i l) s fun l' s' => l'.Perm l ∧ s'.funs = s.funs := by
  intro cnt
  induction cnt with
  | zero => intro i l s _ _; exact Safe.pure ⟨.refl _, rfl⟩
  | succ cnt ih =>
    intro i l s h hl
    unfold shuffleFrom
    refine (nextInt_safe (by omega) (by omega) hF).bind fun r s1 h1 => ?_
    obtain ⟨l', e, hp⟩ := swap_perm (l := l) (i := i) (j := r.toNat) (by omega) (by omega)
    refine (Safe.lift e (post := fun a s' => a = l' ∧ s' = s1) ⟨rfl, rfl⟩).bind ?_
    rintro _ _ ⟨rfl, rfl⟩
    refine (ih (i + 1) _ _ ?_ ?_).mono fun l2 s2 h2 => ⟨h2.1.trans hp, h2.2.trans h1.2⟩ <;> rw [hp.length_eq] <;> omega

theorem shuffle_safe {fuel : Nat} (hF : T → 2 ^ 50 ≤ fuel) {l : List α} (hl : l.length ≤ 2 ^ 31 - 1) {s : State} :
    Safe T (shuffle fuel l) s fun l' s' => l'.Perm l ∧ s'.funs = s.funs :=
  shuffleFrom_safe hF _ _ _ _ (by omega) hl

/-- an edge between different nodes -/
def EndsOK (node : Int) (p : Int × Int) : Prop := 0 ≤ p.1 ∧ p.1 < node ∧ 0 ≤ p.2 ∧ p.2 < node ∧ p.1 ≠ p.2

/-- edges between different nodes, in both directions -/
def Differ (p q : Int × Int) : Prop := p ≠ q ∧ p ≠ q.swap

theorem Differ.symm {p q : Int × Int} (h : Differ p q) : Differ q p :=
  ⟨fun e => h.1 e.symm, fun e => h.2 (by rw [e, Prod.swap_swap])⟩

/-- From the state `w` on, `next(node)` returns `p.1`, `p.2`, `p.1`. -/
structure Window (node : Int) (w : Nat) (p : Int × Int) : Prop where
  lt : w < 2 ^ 48
  acc1 : acc node (step w / 2 ^ 17)
  acc2 : acc node (step (step w) / 2 ^ 17)
  acc3 : acc node (step (step (step w)) / 2 ^ 17)
  v1 : val node (step w / 2 ^ 17) = p.1
  v2 : val node (step (step w) / 2 ^ 17) = p.2
  v3 : val node (step (step (step w)) / 2 ^ 17) = p.1

theorem drawPair_at {fuel : Nat} {node : Int} (hn : 0 < node) {multi : Bool} {e : List (Int × Int)} {w : Nat} {p : Int × Int} (hw : Window node w p)
    (h1 : judge multi e p.1 p.2 = false) (h2 : judge multi e p.2 p.1 = false) : ∀ (K : Nat) (k : Nat) (s : State), K < fuel → K + 1 < k → step^[K] s.seed = w →
    ∃ r, drawPair fuel node multi e k s = .ok r := by
  intro K
  induction K using Nat.strong_induction_on with
  | _ K ih =>
    intro k s hf hk hs
    obtain ⟨k, rfl⟩ : ∃ j, k = j + 1 := ⟨k - 1, by omega⟩
    have e1 : step^[K + 1] s.seed = step w := by rw [Function.iterate_succ_apply', hs]
    obtain ⟨r1, hr1, x1⟩ := nextInt_at hn (K := K) (fuel := fuel) (s := s) hf (by rw [e1]; exact hw.acc1)
    unfold drawPair
    rw [bind_at x1]
    rcases Nat.lt_or_ge r1 K with hlt | hge
    · have e2 : step^[K - r1 - 1] (step^[r1 + 1] s.seed) = w := by
        rw [← Function.iterate_add_apply, show K - r1 - 1 + (r1 + 1) = K by omega, hs]
      have e3 : step^[K - r1 - 1 + 1] (step^[r1 + 1] s.seed) = step w := by rw [Function.iterate_succ_apply', e2]
      obtain ⟨r2, hr2, x2⟩ := nextInt_at hn (K := K - r1 - 1) (fuel := fuel) (s := { s with seed := step^[r1 + 1] s.seed }) (by omega)
        (by rw [e3]; exact hw.acc1)
      rw [bind_at x2]
      split
      · rcases Nat.lt_or_ge r2 (K - r1 - 1) with hlt2 | hge2
        · refine ih (K - r1 - 1 - r2 - 1) (by omega) k _ (by omega) (by omega) ?_
          show step^[K - r1 - 1 - r2 - 1] (step^[r2 + 1] (step^[r1 + 1] s.seed)) = w
          rw [← Function.iterate_add_apply, show K - r1 - 1 - r2 - 1 + (r2 + 1) = K - r1 - 1 by omega, e2]
        · have hr : r2 = K - r1 - 1 := by omega
          subst hr
          obtain ⟨k, rfl⟩ : ∃ j, k = j + 1 := ⟨k - 1, by omega⟩
          unfold drawPair
          show ∃ r, (nextInt fuel node >>= _ : Gen _) { s with seed := step^[K - r1 - 1 + 1] (step^[r1 + 1] s.seed) } = .ok r
          rw [e3]
          obtain ⟨r3, hr3, x3⟩ := nextInt_at hn (K := 0) (fuel := fuel) (s := { s with seed := step w }) (by omega)
            (by rw [Nat.zero_add, Function.iterate_one]; exact hw.acc2)
          obtain rfl : r3 = 0 := by omega
          rw [Nat.zero_add, Function.iterate_one] at x3
          rw [bind_at x3]
          obtain ⟨r4, hr4, x4⟩ := nextInt_at hn (K := 0) (fuel := fuel) (s := { s with seed := step (step w) }) (by omega)
            (by rw [Nat.zero_add, Function.iterate_one]; exact hw.acc3)
          obtain rfl : r4 = 0 := by omega
          rw [Nat.zero_add, Function.iterate_one] at x4
          rw [bind_at x4, hw.v2, hw.v3, h2]
          exact ⟨_, rfl⟩
      · exact ⟨_, rfl⟩
    · have hr : r1 = K := by omega
      subst hr
      rw [e1]
      obtain ⟨r4, hr4, x4⟩ := nextInt_at hn (K := 0) (fuel := fuel) (s := { s with seed := step w }) (by omega)
        (by rw [Nat.zero_add, Function.iterate_one]; exact hw.acc2)
      obtain rfl : r4 = 0 := by omega
      rw [Nat.zero_add, Function.iterate_one] at x4
      rw [bind_at x4, hw.v1, hw.v2, h1]
      exact ⟨_, rfl⟩

theorem drawPair_ends {fuel : Nat} {node : Int} (hn : 0 < node) {multi : Bool} {e : List (Int × Int)} {w : Nat} {p : Int × Int} (hw : Window node w p)
    (h1 : judge multi e p.1 p.2 = false) (h2 : judge multi e p.2 p.1 = false) (hf : 2 ^ 50 ≤ fuel) (s : State) :
    ∃ r, drawPair fuel node multi e fuel s = .ok r := by
  obtain ⟨k, hk, e⟩ := reaches s.seed hw.lt
  exact drawPair_at hn hw h1 h2 (k + 1) fuel s (by omega) (by omega) e

/-- there are enough windows for `m` edges -/
def Windows (node : Int) (multi : Bool) (m : Int) : Prop :=
  ∃ L : List (Nat × (Int × Int)), (∀ x ∈ L, Window node x.1 x.2 ∧ x.2.1 ≠ x.2.2) ∧ L ≠ [] ∧
    (multi = false → (L.map Prod.snd).Pairwise Differ ∧ m ≤ L.length)

/-- the smaller end first -/
def norm (p : Int × Int) : Int × Int := (min p.1 p.2, max p.1 p.2)

theorem norm_eq {p q : Int × Int} (h : norm p = norm q) : p = q ∨ p = q.swap := by
  obtain ⟨a, b⟩ := p
  obtain ⟨c, d⟩ := q
  simp only [norm, Prod.mk.injEq, Prod.swap_prod_mk] at h ⊢
  omega

theorem norm_swap (p : Int × Int) : norm p.swap = norm p := by
  obtain ⟨a, b⟩ := p
  simp only [norm, Prod.mk.injEq, Prod.swap_prod_mk]
  omega

theorem exists_new {ps edge : List (Int × Int)} (h : ps.Pairwise Differ) (hl : edge.length < ps.length) : ∃ p ∈ ps, p ∉ edge ∧ p.swap ∉ edge := by
  by_contra hc
  push Not at hc
  have h1 : (ps.map norm).Nodup := by
    refine List.pairwise_map.2 (h.imp fun hd he => ?_)
    rcases norm_eq he with h | h
    · exact hd.1 h
    · exact hd.2 h
  have h2 : ps.map norm ⊆ edge.map norm := by
    intro x hx
    obtain ⟨p, hp, rfl⟩ := List.mem_map.1 hx
    by_cases hpe : p ∈ edge
    · exact List.mem_map_of_mem hpe
    · rw [← norm_swap]
      exact List.mem_map_of_mem (hc p hp hpe)
  have := (List.subperm_of_subset h1 h2).length_le
  simp only [List.length_map] at this
  omega

theorem judge_multi {e : List (Int × Int)} {a b : Int} (h : a ≠ b) : judge true e a b = false := by
  simp [judge, h]

theorem judge_new {multi : Bool} {e : List (Int × Int)} {p : Int × Int} (h : p.1 ≠ p.2) (h1 : p ∉ e) (h2 : p.swap ∉ e) :
    judge multi e p.1 p.2 = false ∧ judge multi e p.2 p.1 = false := by
  obtain ⟨a, b⟩ := p
  simp only [Prod.swap_prod_mk] at h h1 h2
  constructor <;> simp [judge, h, h.symm, h1, h2]

theorem Windows.fresh {node : Int} {multi : Bool} {m : Int} (hW : Windows node multi m) {edge e : List (Int × Int)} (hl : (edge.length : Int) < m)
    (he : multi = false → ∀ p ∈ e, p ∈ edge ∨ p.swap ∈ edge) : ∃ w p, Window node w p ∧ judge multi e p.1 p.2 = false ∧ judge multi e p.2 p.1 = false := by
  obtain ⟨L, h1, h2, h3⟩ := hW
  cases multi with
  | true =>
    obtain ⟨x, hx⟩ := List.exists_mem_of_ne_nil L h2
    exact ⟨x.1, x.2, (h1 x hx).1, judge_multi (h1 x hx).2, judge_multi (h1 x hx).2.symm⟩
  | false =>
    obtain ⟨p1, p2⟩ := h3 rfl
    obtain ⟨p, hp, n1, n2⟩ := exists_new p1 (edge := edge) (by rw [List.length_map]; omega)
    obtain ⟨x, hx, rfl⟩ := List.mem_map.1 hp
    refine ⟨x.1, x.2, (h1 x hx).1, judge_new (h1 x hx).2 (fun h => ?_) (fun h => ?_)⟩
    · rcases he rfl _ h with h | h
      · exact n1 h
      · exact n2 h
    · rcases he rfl _ h with h | h
      · exact n2 h
      · exact n1 (by rw [Prod.swap_swap] at h; exact h)

theorem drawPair_safe {fuel : Nat} {node : Int} (hn : 0 < node) (hn' : node ≤ 2 ^ 31 - 1) {multi : Bool} {e : List (Int × Int)} : ∀ (k : Nat) (s : State),
    Safe False (drawPair fuel node multi e k) s fun p s' =>
      (EndsOK node p ∧ (multi = false → p ∉ e ∧ p.swap ∉ e)) ∧ s'.funs = s.funs := by
  intro k
  induction k with
  | zero => intro s; exact Safe.fuel id
  | succ k ih =>
    intro s
    unfold drawPair
    refine (nextInt_safe hn hn' False.elim).bind fun u s1 h1 => (nextInt_safe hn hn' False.elim).bind fun v s2 h2 => ?_
    cases hj : judge multi e u v with
    | true => exact (ih s2).mono fun p s3 h3 => ⟨h3.1, h3.2.trans (h2.2.trans h1.2)⟩
    | false =>
      unfold judge at hj
      simp only [Bool.or_eq_false_iff, decide_eq_false_iff_not, Bool.and_eq_false_iff, Bool.not_eq_false'] at hj
      refine Safe.pure ⟨⟨⟨h1.1.1, h1.1.2, h2.1.1, h2.1.2, hj.1⟩, fun hm => ?_⟩, h2.2.trans h1.2⟩
      rcases hj.2 with h | h
      · rw [hm] at h; cases h
      · exact h

theorem edgeLoop_safe {fuel : Nat} {node : Int} (hn : 0 < node) (hn' : node ≤ 2 ^ 31 - 1) (hF : T → 2 ^ 50 ≤ fuel) {multi : Bool} {side : Int}
    (hW : T → 0 < side → Windows node multi side) : ∀ (k : Nat) (m : Int) (edge e : List (Int × Int)) (s : State),
    0 ≤ m → m ≤ 2 ^ 31 - 1 → (∀ p ∈ edge, EndsOK node p) → (multi = false → (∀ p ∈ edge, p ∈ e ∧ p.swap ∈ e) ∧ edge.Pairwise Differ) →
    (multi = false → ∀ p ∈ e, p ∈ edge ∨ p.swap ∈ edge) → (edge.length : Int) + m ≤ side → (T → m < k) →
    Safe T (edgeLoop fuel node multi k m edge e) s fun edge' s' => (edge'.length = edge.length + m.toNat ∧ (∀ p ∈ edge', EndsOK node p) ∧
      (multi = false → edge'.Pairwise Differ)) ∧ s'.funs = s.funs := by
  intro k
  induction k with
  | zero => intro m edge e s h0 h1 hok hd hd' hs hk; exact Safe.fuel fun hT => by have := hk hT; omega
  | succ k ih =>
    intro m edge e s h0 h1 hok hd hd' hs hk
    unfold edgeLoop
    by_cases hm : m = 0
    · rw [if_pos hm]
      exact Safe.pure ⟨⟨by omega, hok, fun h => (hd h).2⟩, rfl⟩
    · rw [if_neg hm]
      refine (int_safe (by omega) (by omega)).bind ?_
      rintro _ s ⟨rfl, rfl⟩
      have hdraw := (drawPair_safe (fuel := fuel) hn hn' (multi := multi) (e := e) fuel s).total (T := T) fun hT => by
        obtain ⟨w, p, w1, w2, w3⟩ := (hW hT (by omega)).fresh (edge := edge) (e := e) (by omega) hd'
        exact drawPair_ends hn w1 w2 w3 (hF hT) s
      refine hdraw.bind fun ⟨u, v⟩ s1 ⟨⟨a1, a2⟩, a3⟩ => ?_
      show Safe T (addEdge fuel multi u v edge e >>= fun x => edgeLoop fuel node multi k (m - 1) x.1 x.2) s1 _
      refine Safe.bind (q := fun x s' => (∃ p, (p = (u, v) ∨ p = (v, u)) ∧ x.1 = edge ++ [p] ∧ x.2 = if multi then e else (v, u) :: (u, v) :: e) ∧
        s'.funs = s1.funs) ?_ ?_
      · unfold addEdge
        refine (nextInt_safe (by norm_num) (by norm_num) hF).bind fun r s2 b => Safe.pure ⟨⟨_, ?_, rfl, rfl⟩, b.2⟩
        split <;> simp
      · rintro ⟨ed, ee⟩ s2 ⟨⟨p, hp, rfl, rfl⟩, b2⟩
        have hpok : EndsOK node p := by
          obtain ⟨c1, c2, c3, c4, c5⟩ := a1
          rcases hp with rfl | rfl
          · exact ⟨c1, c2, c3, c4, c5⟩
          · exact ⟨c3, c4, c1, c2, c5.symm⟩
        refine (ih (m - 1) _ _ _ (by omega) (by omega) ?_ ?_ ?_ (by rw [List.length_append, List.length_singleton]; push_cast; omega)
          fun hT => by have := hk hT; push_cast at this; omega).mono fun ed s3 ⟨⟨c1, c2, c3⟩, c4⟩ => ⟨⟨?_, c2, c3⟩, c4.trans (b2.trans a3)⟩
        · intro q hq
          rcases List.mem_append.1 hq with h | h
          · exact hok q h
          · rw [List.mem_singleton.1 h]; exact hpok
        · intro hmul
          obtain ⟨d1, d2⟩ := hd hmul
          obtain ⟨f1, f2⟩ := a2 hmul
          refine ⟨fun q hq => ?_, ?_⟩
          · simp only [hmul, Bool.false_eq_true, if_false]
            rcases List.mem_append.1 hq with h | h
            · have := d1 q h
              exact ⟨by simp [this.1], by simp [this.2]⟩
            · rw [List.mem_singleton.1 h]
              rcases hp with rfl | rfl <;> simp
          · refine List.pairwise_append.2 ⟨d2, List.pairwise_singleton _ _, fun q hq r hr => ?_⟩
            rw [List.mem_singleton.1 hr]
            obtain ⟨g1, g2⟩ := d1 q hq
            refine Differ.symm ⟨?_, ?_⟩
            · rintro rfl
              rcases hp with rfl | rfl
              · exact f1 g1
              · exact f2 g1
            · intro hh
              rcases hp with rfl | rfl
              · exact f1 (by rw [hh]; exact g2)
              · have : q = (u, v) := by rw [← Prod.swap_swap q, ← hh]; rfl
                exact f1 (this ▸ g1)
        · intro hmul q hq
          simp only [hmul, Bool.false_eq_true, if_false] at hq
          rcases List.mem_cons.1 hq with rfl | hq
          · rcases hp with rfl | rfl <;> simp
          rcases List.mem_cons.1 hq with rfl | hq
          · rcases hp with rfl | rfl <;> simp
          · exact (hd' hmul q hq).imp (fun h => List.mem_append_left _ h) fun h => List.mem_append_left _ h
        · rw [c1, List.length_append, List.length_singleton]
          omega

theorem genGraph_safe {fuel : Nat} (hF : T → 2 ^ 50 ≤ fuel) {node side : Int} (hn : 0 < node) (hn' : node ≤ 2 ^ 31 - 1) (h0 : 0 ≤ side) (h1 : side ≤ 2 ^ 31 - 1) {multi : Bool}
    (hm : multi = false → side ≤ (node * (node - 1)).tdiv 2) (hW : T → 0 < side → Windows node multi side) {s : State} :
    Safe T (genGraph fuel node side multi) s fun ed s' => (ed.length = side.toNat ∧ (∀ p ∈ ed, EndsOK node p) ∧
      (multi = false → ed.Pairwise Differ)) ∧ s'.funs = s.funs := by
  unfold genGraph
  have e : (if multi then side else min side ((node * (node - 1)).tdiv 2)) = side := by
    cases multi with
    | true => rfl
    | false => exact min_eq_left (hm rfl)
  rw [e]
  refine (edgeLoop_safe hn hn' hF hW fuel side [] [] s h0 h1 (by simp) (by simp) (by simp) (by simp) fun hT => by have := hF hT; omega).bind
    fun ed s1 ⟨⟨a1, a2, a3⟩, a4⟩ => ?_
  refine (shuffle_safe hF (by rw [a1]; simp; omega)).mono fun ed' s2 ⟨b1, b2⟩ => ⟨⟨?_, fun p hp => a2 p (b1.mem_iff.1 hp), fun hmul => ?_⟩, b2.trans a4⟩
  · rw [b1.length_eq, a1]; simp
  · exact (b1.pairwise_iff (fun h => h.symm)).2 (a3 hmul)

/-! ### Nodes and pairs -/

section
variable {D : Type} [IntCast D] [Add D] [Mul D] [Div D]

/-- the function that `RandF` returns -/
def quad (a b c : Int) (x : Int) : D :=
  (a : D) / ((4 : Int) : D) * (x : D) * (x : D) + (b : D) / ((4 : Int) : D) * (x : D) + (c : D) / ((4 : Int) : D)

/-- a range and a function -/
structure Desc where
  l : Int
  u : Int
  a : Int
  b : Int
  c : Int

/-- within the limits -/
structure Desc.OK (lim fl : Int × Int) (d : Desc) : Prop where
  lo : lim.1 ≤ d.l
  le : d.l ≤ d.u
  hi : d.u ≤ lim.2
  a0 : 4 * max 0 fl.1 ≤ d.a
  a1 : d.a ≤ 4 * max 0 fl.2
  b0 : 4 * fl.1 ≤ d.b
  b1 : d.b ≤ 4 * fl.2
  c0 : 4 * fl.1 ≤ d.c
  c1 : d.c ≤ 4 * fl.2

/-- the node -/
def Desc.mu (D : Type) [IntCast D] [Add D] [Mul D] [Div D] (d : Desc) : MuLimit D := { l := d.l, u := d.u, fn := fun x => .ok (quad d.a d.b d.c x) }

/-- the pair between the nodes `p` -/
def Desc.omega (D : Type) [IntCast D] [Add D] [Mul D] [Div D] (p : Int × Int) (d : Desc) : OmegaLimit D :=
  { l := d.l, u := d.u, fn := fun x => .ok (quad d.a d.b d.c x), i := (p.1 + 1).toNat, j := (p.2 + 1).toNat }

/-- the entry of the queue -/
def Desc.fn (d : Desc) : Int × Int × Int := (d.a, d.b, d.c)

/-- the limits of `RandF` -/
structure FunOK (fl : Int × Int) : Prop where
  le : fl.1 ≤ fl.2
  lo : -2 ^ 31 ≤ 4 * fl.1
  hi : 4 * fl.2 ≤ 2 ^ 31 - 1

/-- what `RandF` adds to the queue -/
def pushed (gi : Bool) (f : List (Int × Int × Int)) : List (Int × Int × Int) := if gi then f else []

theorem randF_safe {fuel : Nat} (hF : T → 2 ^ 50 ≤ fuel) {fl : Int × Int} (h : FunOK fl) {gi : Bool} {s : State} :
    Safe T (randF (D := D) fuel fl gi) s fun fn s' => ∃ a b c : Int, fn = (fun x => .ok (quad a b c x)) ∧ (4 * max 0 fl.1 ≤ a ∧ a ≤ 4 * max 0 fl.2) ∧
      (4 * fl.1 ≤ b ∧ b ≤ 4 * fl.2) ∧ (4 * fl.1 ≤ c ∧ c ≤ 4 * fl.2) ∧ s'.funs = s.funs ++ pushed gi [(a, b, c)] := by
  obtain ⟨h1, h2, h3⟩ := h
  unfold randF
  refine (int_safe (by omega) (by omega)).bind ?_
  rintro _ _ ⟨rfl, rfl⟩
  refine (int_safe (by omega) (by omega)).bind ?_
  rintro _ _ ⟨rfl, rfl⟩
  refine (nextIn_safe (by omega) (by omega) hF).bind fun a s1 ⟨a1, a2⟩ => ?_
  refine (int_safe (by omega) (by omega)).bind ?_
  rintro _ _ ⟨rfl, rfl⟩
  refine (int_safe (by omega) (by omega)).bind ?_
  rintro _ _ ⟨rfl, rfl⟩
  refine (nextIn_safe (by omega) (by omega) hF).bind fun b s2 ⟨b1, b2⟩ => ?_
  refine (nextIn_safe (by omega) (by omega) hF).bind fun c s3 ⟨c1, c2⟩ => ?_
  cases gi with
  | true => exact ⟨a, b, c, rfl, a1, b1, c1, congrArg (· ++ [(a, b, c)]) (c2.trans (b2.trans a2))⟩
  | false => exact ⟨a, b, c, rfl, a1, b1, c1, by rw [show pushed false [(a, b, c)] = [] from rfl, List.append_nil]; exact c2.trans (b2.trans a2)⟩

theorem randRange_safe {fuel : Nat} (hF : T → 2 ^ 50 ≤ fuel) {lim : Int × Int} (h : lim.1 ≤ lim.2) (h' : lim.2 - lim.1 < 2 ^ 32) {s : State} :
    Safe T (randRange fuel lim) s fun p s' => (lim.1 ≤ p.1 ∧ p.1 ≤ p.2 ∧ p.2 ≤ lim.2) ∧ s'.funs = s.funs := by
  refine (nextIn_safe h h' hF).bind fun l s1 h1 => (nextIn_safe h h' hF).bind fun u s2 h2 => Safe.pure ⟨?_, h2.2.trans h1.2⟩
  split
  · exact ⟨h2.1.1, by show u ≤ l; omega, h1.1.2⟩
  · exact ⟨h1.1.1, by show l ≤ u; omega, h2.1.2⟩

theorem pushed_append {gi : Bool} {a b : List (Int × Int × Int)} : pushed gi a ++ pushed gi b = pushed gi (a ++ b) := by
  cases gi <;> rfl

theorem nodeLoop_safe {fuel : Nat} (hF : T → 2 ^ 50 ≤ fuel) {nl fl : Int × Int} (hn : nl.1 ≤ nl.2) (hn' : nl.2 - nl.1 < 2 ^ 32) (hf : FunOK fl) {gi : Bool} : ∀ (cnt : Nat) (nodes : List (MuLimit D)) (s : State),
    Safe T (nodeLoop fuel nl fl gi cnt nodes) s fun nodes' s' => ∃ ds : List Desc, ds.length = cnt ∧ (∀ d ∈ ds, d.OK nl fl) ∧
      nodes' = nodes ++ ds.map (Desc.mu D) ∧ s'.funs = s.funs ++ pushed gi (ds.map Desc.fn) := by
  intro cnt
  induction cnt with
  | zero => intro nodes s; exact Safe.pure ⟨[], rfl, by simp, by simp, by cases gi <;> simp [pushed]⟩
  | succ cnt ih =>
    intro nodes s
    unfold nodeLoop
    refine (randRange_safe hF hn hn').bind fun ⟨l, u⟩ s1 ⟨a1, a2⟩ => ?_
    refine (randF_safe hF hf).bind fun fn s2 ⟨a, b, c, e, b1, b2, b3, b4⟩ => ?_
    subst e
    refine (ih _ s2).mono fun ns s3 ⟨ds, c1, c2, c3, c4⟩ => ⟨⟨l, u, a, b, c⟩ :: ds, by simp [c1], ?_, ?_, ?_⟩
    · intro d hd
      rcases List.mem_cons.1 hd with rfl | hd
      · exact ⟨a1.1, a1.2.1, a1.2.2, b1.1, b1.2, b2.1, b2.2, b3.1, b3.2⟩
      · exact c2 d hd
    · rw [c3, List.map_cons, List.append_assoc]; rfl
    · rw [c4, b4, a2, List.append_assoc, pushed_append]; rfl

theorem pairLoop_safe {fuel : Nat} (hF : T → 2 ^ 50 ≤ fuel) {el fl : Int × Int} (he : el.1 ≤ el.2) (he' : el.2 - el.1 < 2 ^ 32) (hf : FunOK fl) {gi : Bool} {n : Int} (hn : n ≤ 2 ^ 31 - 1) :
    ∀ (ends : List (Int × Int)) (edges : List (OmegaLimit D)) (s : State), (∀ p ∈ ends, EndsOK n p) →
    Safe T (pairLoop fuel el fl gi ends edges) s fun edges' s' => ∃ ds : List Desc, ds.length = ends.length ∧ (∀ d ∈ ds, d.OK el fl) ∧
      edges' = edges ++ List.zipWith (Desc.omega D) ends ds ∧ s'.funs = s.funs ++ pushed gi (ds.map Desc.fn) := by
  intro ends
  induction ends with
  | nil => intro edges s _; exact Safe.pure ⟨[], rfl, by simp, by simp, by cases gi <;> simp [pushed]⟩
  | cons p rest ih =>
    intro edges s hp
    obtain ⟨i, j⟩ := p
    obtain ⟨p1, p2, p3, p4, -⟩ := hp (i, j) List.mem_cons_self
    simp only at p1 p2 p3 p4
    unfold pairLoop
    refine (randRange_safe hF he he').bind fun ⟨l, u⟩ s1 ⟨a1, a2⟩ => ?_
    refine (randF_safe hF hf).bind fun fn s2 ⟨a, b, c, e, b1, b2, b3, b4⟩ => ?_
    subst e
    refine (int_safe (by omega) (by omega)).bind ?_
    rintro _ _ ⟨rfl, rfl⟩
    refine (int_safe (by omega) (by omega)).bind ?_
    rintro _ _ ⟨rfl, rfl⟩
    refine (ih _ _ fun q hq => hp q (List.mem_cons_of_mem _ hq)).mono fun ns s3 ⟨ds, c1, c2, c3, c4⟩ => ⟨⟨l, u, a, b, c⟩ :: ds, by simp [c1], ?_, ?_, ?_⟩
    · intro d hd
      rcases List.mem_cons.1 hd with rfl | hd
      · exact ⟨a1.1, a1.2.1, a1.2.2, b1.1, b1.2, b2.1, b2.2, b3.1, b3.2⟩
      · exact c2 d hd
    · rw [c3, List.zipWith_cons_cons, List.append_assoc]; rfl
    · rw [c4, b4, a2, List.append_assoc, pushed_append]; rfl

end

/-! ### Description -/

theorem fmt_length {z : Int} (h : z.natAbs ≤ 2 ^ 31) : (fmt z).length ≤ 13 := by
  unfold fmt
  have h1 : (toString (z.natAbs / 4)).length ≤ 9 := by
    show (Nat.repr (z.natAbs / 4)).length ≤ 9
    rw [Nat.length_repr_le_iff (by norm_num)]
    omega
  have h2 : (if z < 0 then "-" else "" : String).length ≤ 1 := by split <;> decide
  rw [String.length_append, String.length_append]
  have h3 : z.natAbs % 4 = 0 ∨ z.natAbs % 4 = 1 ∨ z.natAbs % 4 = 2 ∨ z.natAbs % 4 = 3 := by omega
  rcases h3 with h3 | h3 | h3 | h3
  · simp only [h3, show ".00".length = 3 by decide]; omega
  · simp only [h3, show ".25".length = 3 by decide]; omega
  · simp only [h3, show ".50".length = 3 by decide]; omega
  · simp only [h3, show ".75".length = 3 by decide]; omega

/-- an entry of the queue which can be printed -/
def FnOK (f : Int × Int × Int) : Prop := f.1.natAbs ≤ 2 ^ 31 ∧ f.2.1.natAbs ≤ 2 ^ 31 ∧ f.2.2.natAbs ≤ 2 ^ 31

/-- the text of a function (`test/generator.cpp:24`) -/
def fnText (f : Int × Int × Int) : String := "[](int x) { return " ++ fmt f.1 ++ " * x * x + " ++ fmt f.2.1 ++ " * x + " ++ fmt f.2.2 ++ "; }"

/-- the line of a node -/
def nodeLine (d : Desc) : String := "\t\t{" ++ toString d.l ++ ", " ++ toString d.u ++ ", " ++ fnText d.fn ++ "}\n"

/-- the line of a pair -/
def pairLine (p : Int × Int) (d : Desc) : String :=
  "\t\t{{" ++ toString d.l ++ ", " ++ toString d.u ++ ", " ++ fnText d.fn ++ "}, " ++ toString (p.1 + 1).toNat ++ ", " ++ toString (p.2 + 1).toNat ++ "}\n"

/-- the lines of the nodes -/
def nodeLines : List Desc → String
  | [] => ""
  | d :: ds => nodeLine d ++ nodeLines ds

/-- the lines of the pairs -/
def pairLines : List (Int × Int) → List Desc → String
  | p :: ps, d :: ds => pairLine p d ++ pairLines ps ds
  | _, _ => ""

/-- the text which describes a test -/
def infoText (n : Int) (nd : List Desc) (ends : List (Int × Int)) (pd : List Desc) : String :=
  "{\n\t" ++ toString n ++ "\n\t{\n\t\t{}\n" ++ nodeLines nd ++ "\t}\n\t{\n" ++ pairLines ends pd ++ "\t}\n}\n"

theorem printFunction_safe {f : Int × Int × Int} {rest : List (Int × Int × Int)} (hf : FnOK f) {s : State} (hs : s.funs = f :: rest) :
    Safe T printFunction s fun t s' => t = fnText f ∧ s'.funs = rest := by
  obtain ⟨a, b, c⟩ := f
  obtain ⟨h1, h2, h3⟩ := hf
  unfold Safe printFunction
  rw [hs]
  have l1 := fmt_length h1
  have l2 := fmt_length h2
  have l3 := fmt_length h3
  simp only at l1 l2 l3 ⊢
  have e : ("[](int x) { return " ++ fmt a ++ " * x * x + " ++ fmt b ++ " * x + " ++ fmt c ++ "; }").length + 1 ≤ 90 := by
    simp only [String.length_append]
    have c1 : "[](int x) { return ".length = 19 := by decide
    have c2 : " * x * x + ".length = 11 := by decide
    have c3 : " * x + ".length = 7 := by decide
    have c4 : "; }".length = 3 := by decide
    omega
  rw [if_pos e]
  exact ⟨rfl, rfl⟩

section
variable {D : Type} [IntCast D] [Add D] [Mul D] [Div D]

theorem nodeInfo_safe {nodes : List (MuLimit D)} {rest : List (Int × Int × Int)} : ∀ (ds : List Desc) (cnt i : Nat) (t : String) (s : State),
    ds.length = cnt → (∃ pre, nodes = pre ++ ds.map (Desc.mu D) ∧ pre.length = i) → s.funs = ds.map Desc.fn ++ rest → (∀ d ∈ ds, FnOK d.fn) →
    Safe T (nodeInfo nodes cnt i t) s fun t' s' => t' = t ++ nodeLines ds ∧ s'.funs = rest := by
  intro ds
  induction ds with
  | nil => rintro _ i t s rfl _ hs _; exact Safe.pure ⟨by simp [nodeLines], hs⟩
  | cons d ds ih =>
    rintro _ i t s rfl ⟨pre, hp, hi⟩ hs hf
    show Safe T (nodeInfo nodes (ds.length + 1) i t) s _
    unfold nodeInfo
    refine (Safe.lift (a := d.mu D) (by unfold listRd; rw [hp, ← hi]; simp) (post := fun e s' => e = d.mu D ∧ s' = s) ⟨rfl, rfl⟩).bind ?_
    rintro e _ ⟨rfl, rfl⟩
    refine (printFunction_safe (hf d List.mem_cons_self) hs).bind ?_
    rintro _ s1 ⟨rfl, h1⟩
    refine (ih _ _ _ _ rfl ⟨pre ++ [d.mu D], by rw [hp]; simp, by simp [hi]⟩ h1 fun g hg => hf g (List.mem_cons_of_mem _ hg)).mono ?_
    rintro t' s' ⟨h2, h3⟩
    refine ⟨?_, h3⟩
    rw [h2]
    simp only [nodeLines, nodeLine, Desc.mu, String.append_assoc]

theorem pairInfo_safe {edges : List (OmegaLimit D)} {rest : List (Int × Int × Int)} : ∀ (ps : List (Int × Int)) (ds : List Desc) (cnt i : Nat) (t : String) (s : State),
    ds.length = cnt → ps.length = cnt → (∃ pre, edges = pre ++ List.zipWith (Desc.omega D) ps ds ∧ pre.length = i) → s.funs = ds.map Desc.fn ++ rest →
    (∀ d ∈ ds, FnOK d.fn) → Safe T (pairInfo edges cnt i t) s fun t' s' => t' = t ++ pairLines ps ds ∧ s'.funs = rest := by
  intro ps
  induction ps with
  | nil =>
    rintro ds _ i t s h1 rfl _ hs _
    obtain rfl := List.length_eq_zero_iff.1 h1
    exact Safe.pure ⟨by simp [pairLines], hs⟩
  | cons p ps ih =>
    rintro ds _ i t s h1 rfl ⟨pre, hp, hi⟩ hs hf
    cases ds with
    | nil => simp at h1
    | cons d ds =>
      show Safe T (pairInfo edges (ps.length + 1) i t) s _
      unfold pairInfo
      refine (Safe.lift (a := d.omega D p) (by unfold listRd; rw [hp, ← hi]; simp) (post := fun e s' => e = d.omega D p ∧ s' = s) ⟨rfl, rfl⟩).bind ?_
      rintro e _ ⟨rfl, rfl⟩
      refine (printFunction_safe (hf d List.mem_cons_self) hs).bind ?_
      rintro _ s1 ⟨rfl, h2⟩
      refine (ih ds _ _ _ _ (by simpa using h1) rfl ⟨pre ++ [d.omega D p], by rw [hp]; simp, by simp [hi]⟩ h2 fun g hg => hf g (List.mem_cons_of_mem _ hg)).mono ?_
      rintro t' s' ⟨h3, h4⟩
      refine ⟨?_, h4⟩
      rw [h3]
      simp only [pairLines, pairLine, Desc.omega, String.append_assoc]

theorem Desc.OK.fnOK {lim fl : Int × Int} (hf : FunOK fl) {d : Desc} (h : d.OK lim fl) : FnOK d.fn := by
  obtain ⟨h1, h2, h3⟩ := hf
  obtain ⟨-, -, -, g1, g2, g3, g4, g5, g6⟩ := h
  unfold FnOK Desc.fn
  simp only
  omega

/-- the arguments of `TinyGen` -/
structure Args (n mlimit : Int) (nl el fl : Int × Int) : Prop where
  n_pos : 1 ≤ n
  n_le : n * (n - 1) ≤ 2 ^ 31 - 1
  n_le' : n ≤ 2 ^ 31 - 1
  m_ge : n - 1 ≤ mlimit
  m_le : mlimit ≤ 2 ^ 31 - 1
  node : nl.1 ≤ nl.2
  node' : nl.2 - nl.1 < 2 ^ 32
  edge : el.1 ≤ el.2
  edge' : el.2 - el.1 < 2 ^ 32
  fn : FunOK fl

/-- what `TinyGen` makes -/
structure Out (D : Type) [IntCast D] [Add D] [Mul D] [Div D] (n mlimit : Int) (multi : Bool) (nl el fl : Int × Int) (g : Graph D)
    (ends : List (Int × Int)) (nd pd : List Desc) : Prop where
  gn : g.n = n
  gm : g.m = ends.length
  m_ge : n - 1 ≤ ends.length
  m_le : (ends.length : Int) ≤ mlimit
  m_le' : multi = false → 2 * (ends.length : Int) ≤ n * (n - 1)
  nd_len : (nd.length : Int) = n
  pd_len : pd.length = ends.length
  ends_ok : ∀ p ∈ ends, EndsOK n p
  differ : multi = false → ends.Pairwise Differ
  nd_ok : ∀ d ∈ nd, d.OK nl fl
  pd_ok : ∀ d ∈ pd, d.OK el fl
  gnode : g.node = { l := 0, u := 0, fn := fun _ => .error .callback } :: nd.map (Desc.mu D)
  gedge : g.edge = List.zipWith (Desc.omega D) ends pd

/-- the result, and the text which describes it -/
theorem tinyGen_text {fuel : Nat} {n mlimit : Int} {multi : Bool} {nl el fl : Int × Int} (h : Args n mlimit nl el fl) {seed : Nat} {gi : Bool}
    (hF : T → 2 ^ 50 ≤ fuel) (hW : T → ∀ m, 0 < m → m ≤ mlimit → (multi = false → 2 * m ≤ n * (n - 1)) → Windows n multi m)
    {s : State} (hs : s.funs = []) : Safe T (tinyGen (D := D) fuel n mlimit multi nl el fl seed gi) s fun g s' =>
      (∃ ends nd pd, Out D n mlimit multi nl el fl g ends nd pd ∧ (gi = true → g.info = infoText n nd ends pd)) ∧ s'.funs = [] := by
  obtain ⟨h1, h2, h2', h3, h4, h5, h5', h6, h6', h7⟩ := h
  unfold tinyGen
  have hnn : 0 ≤ n * (n - 1) := mul_nonneg (by omega) (by omega)
  have hdiv : (n * (n - 1)).tdiv 2 = n * (n - 1) / 2 := Int.tdiv_eq_ediv_of_nonneg hnn
  have hge : n - 1 ≤ n * (n - 1) / 2 := by
    rw [Int.le_ediv_iff_mul_le (by norm_num)]
    rcases eq_or_lt_of_le h1 with h | h
    · rw [← h]; norm_num
    · nlinarith
  refine Safe.bind (q := fun ml s' => (ml ≤ mlimit ∧ n - 1 ≤ ml ∧ (multi = false → ml ≤ (n * (n - 1)).tdiv 2)) ∧ s' = s) ?_ ?_
  · unfold edgeBound
    cases multi with
    | true => exact Safe.pure ⟨⟨le_rfl, h3, by simp⟩, rfl⟩
    | false =>
      refine (int_safe (by omega) (by omega)).bind ?_
      rintro _ _ ⟨rfl, rfl⟩
      refine (int_safe (by linarith) h2).bind ?_
      rintro _ _ ⟨rfl, rfl⟩
      exact Safe.pure ⟨⟨min_le_left _ _, le_min h3 (by omega), fun _ => min_le_right _ _⟩, rfl⟩
  rintro ml _ ⟨⟨m1, m2, m3⟩, rfl⟩
  refine (int_safe (by omega) (by omega)).bind ?_
  rintro _ _ ⟨rfl, rfl⟩
  refine (nextIn_safe m2 (by omega) hF).bind fun m s1 ⟨a1, a2⟩ => ?_
  refine Safe.bind (q := fun _ s' => s'.funs = s1.funs) (show Safe T (setSeed seed) s1 _ from rfl) fun _ s2 b2 => ?_
  refine (genGraph_safe hF (by omega) h2' (by omega) (by omega) (fun h => a1.2.trans (m3 h)) fun hT hm => hW hT m hm (by omega) fun h => by
    have := m3 h; rw [hdiv] at this; omega).bind fun ends s3 ⟨⟨c1, c2, c3⟩, c4⟩ => ?_
  refine (nodeLoop_safe hF h5 h5' h7 _ _ _).bind fun nodes s4 ⟨nd, d1, d2, d3, d4⟩ => ?_
  refine (pairLoop_safe hF h6 h6' h7 h2' _ _ _ c2).bind fun edges s5 ⟨pd, e1, e2, e3, e4⟩ => ?_
  have hout : ∀ info, Out D n mlimit multi nl el fl { n := n, m := m, node := nodes, edge := edges, info := info } ends nd pd := by
    intro info
    exact { gn := rfl, gm := by show m = _; omega, m_ge := by omega, m_le := by omega
            m_le' := fun h => by
              have := m3 h
              rw [hdiv] at this
              omega
            nd_len := by omega, pd_len := e1, ends_ok := c2, differ := c3, nd_ok := d2, pd_ok := e2, gnode := d3, gedge := by simpa using e3 }
  have hq : s5.funs = pushed gi (nd.map Desc.fn ++ pd.map Desc.fn) := by
    rw [e4, d4, c4, b2, a2, hs, List.nil_append, pushed_append]
  cases gi with
  | false => exact Safe.pure ⟨⟨ends, nd, pd, hout _, by simp⟩, hq⟩
  | true =>
    have hq : s5.funs = nd.map Desc.fn ++ pd.map Desc.fn := hq
    refine (nodeInfo_safe (rest := pd.map Desc.fn) nd _ _ _ _ d1 ⟨_, d3, rfl⟩ hq fun d hd => (d2 d hd).fnOK h7).bind ?_
    rintro t s6 ⟨ht, f1⟩
    refine (pairInfo_safe (rest := []) ends pd _ _ _ _ (by omega) (by omega) ⟨_, e3, rfl⟩ (by simpa using f1) fun d hd => (e2 d hd).fnOK h7).bind ?_
    rintro t' s7 ⟨ht', f2⟩
    refine Safe.pure ⟨⟨ends, nd, pd, hout _, fun _ => ?_⟩, f2⟩
    show t' ++ _ = _
    rw [ht', ht]
    simp only [infoText, String.append_assoc]

theorem tinyGen_safe {fuel : Nat} {n mlimit : Int} {multi : Bool} {nl el fl : Int × Int} (h : Args n mlimit nl el fl) {seed : Nat} {gi : Bool}
    (hF : T → 2 ^ 50 ≤ fuel) (hW : T → ∀ m, 0 < m → m ≤ mlimit → (multi = false → 2 * m ≤ n * (n - 1)) → Windows n multi m)
    {s : State} (hs : s.funs = []) : Safe T (tinyGen (D := D) fuel n mlimit multi nl el fl seed gi) s fun g s' =>
      (∃ ends nd pd, Out D n mlimit multi nl el fl g ends nd pd) ∧ s'.funs = [] :=
  (tinyGen_text h hF hW hs).mono fun _ _ ⟨⟨a, b, c, ho, _⟩, hf⟩ => ⟨⟨a, b, c, ho⟩, hf⟩

end

end Gen
end AHO
