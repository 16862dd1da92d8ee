import Verif.Proof.Closure
import Mathlib.Tactic.Ring
import Mathlib.Tactic.Linarith
/-!
# How many function objects are made
-/

namespace AHO
open LCT (bind_ok)
variable {D : Type}

namespace ProblemSolver

/-- `e` is on the unordered pair of `k` -/
def onPair (k : Nat × Nat) (i j : Nat) : Bool := (i == k.1 && j == k.2) || (i == k.2 && j == k.1)

theorem closureFind_set (mp : ClosureMap D) (k k' : Nat × Nat) (v : ClosureLimit D) :
    closureFind (closureSet mp k v) k' = if k = k' then some v else closureFind mp k' := by
  induction mp with
  | nil => rfl
  | cons a mp ih =>
    obtain ⟨k₀, v₀⟩ := a
    unfold closureSet
    by_cases h0 : k₀ = k
    · subst h0
      rw [if_pos rfl]
      by_cases h1 : k₀ = k' <;> simp [closureFind, h1]
    · rw [if_neg h0]
      split
      · by_cases h1 : k = k' <;> simp [closureFind, h1]
      · rw [closureFind, ih]
        by_cases h1 : k = k'
        · subst h1; simp [h0]
        · simp [closureFind, h1]

theorem mem_closureSet {mp : ClosureMap D} {k : Nat × Nat} {v : ClosureLimit D} {kv} (h : kv ∈ closureSet mp k v) : kv = (k, v) ∨ kv ∈ mp := by
  induction mp with
  | nil => left; simpa [closureSet] using h
  | cons a mp ih =>
    obtain ⟨k', v'⟩ := a
    unfold closureSet at h
    split at h
    · rcases List.mem_cons.1 h with h | h
      · exact .inl h
      · exact .inr (List.mem_cons_of_mem _ h)
    · split at h
      · rcases List.mem_cons.1 h with h | h
        · exact .inl h
        · exact .inr h
      · rcases List.mem_cons.1 h with h | h
        · exact .inr (h ▸ List.mem_cons_self)
        · rcases ih h with h | h
          · exact .inl h
          · exact .inr (List.mem_cons_of_mem _ h)

theorem keyLt_iff' (a b : Nat × Nat) : keyLt a b = true ↔ a.1 < b.1 ∨ (a.1 = b.1 ∧ a.2 < b.2) := by
  simp [keyLt]

/-- keys in increasing order -/
def KeySorted (mp : ClosureMap D) : Prop := mp.Pairwise fun a b => keyLt a.1 b.1 = true

theorem KeySorted.set {mp : ClosureMap D} (h : KeySorted mp) (k : Nat × Nat) (v : ClosureLimit D) : KeySorted (closureSet mp k v) := by
  induction mp with
  | nil => simp [closureSet, KeySorted]
  | cons a mp ih =>
    obtain ⟨k', v'⟩ := a
    have h' := List.pairwise_cons.1 h
    unfold closureSet
    split
    · rename_i he
      subst he
      exact List.pairwise_cons.2 ⟨h'.1, h'.2⟩
    · rename_i he
      split
      · rename_i hlt
        refine List.pairwise_cons.2 ⟨fun b hb => ?_, h⟩
        rcases List.mem_cons.1 hb with rfl | hb
        · exact hlt
        · have := h'.1 b hb
          rw [keyLt_iff'] at *
          simp only at *
          omega
      · rename_i hlt
        refine List.pairwise_cons.2 ⟨fun b hb => ?_, ih h'.2⟩
        rcases mem_closureSet hb with rfl | hb
        · rw [keyLt_iff'] at *
          have : ¬ (k'.1 = k.1 ∧ k'.2 = k.2) := fun h => he (Prod.ext h.1 h.2)
          simp only at *
          omega
        · exact h'.1 b hb

theorem KeySorted.find {mp : ClosureMap D} (h : KeySorted mp) {kv} (hm : kv ∈ mp) : closureFind mp kv.1 = some kv.2 := by
  induction mp with
  | nil => cases hm
  | cons a mp ih =>
    have h' := List.pairwise_cons.1 h
    rw [closureFind]
    rcases List.mem_cons.1 hm with rfl | hm
    · rw [if_pos rfl]
    · have := h'.1 kv hm
      rw [if_neg, ih h'.2 hm]
      rintro he
      rw [keyLt_iff', he] at this
      omega

/-- the function object of a limit merged from `k` pairs -/
structure Shape (c : Closure D) (k : Nat) : Prop where
  callbacks : c.size.callbacks = k
  depth_ge : k + 1 ≤ c.size.depth
  depth_le : c.size.depth ≤ k + 2
  objects_ge : 3 * k ≤ c.size.objects + 1
  objects_le : c.size.objects + 1 ≤ 4 * k

/-- after the constructor -/
def Base (e : ClosureLimit D) : Prop := e.fn.size = ⟨2, 1, 2⟩ ∧ e.i ≠ e.j ∧ 1 ≤ e.i ∧ 1 ≤ e.j

theorem processClosures_base [Add D] [LT D] [DecidableLT D] (imax : Int) (fuel n : Nat) (Mus : List (MuLimit D)) :
    ∀ (Os : List (OmegaLimit D)) {K : Nat} {r : Option (List (ClosureLimit D))},
      processClosures imax fuel n Mus (Os.map .ofLimit) = .ok (K, r) → K ≤ Os.length ∧ ∀ es, r = some es →
        K = Os.length ∧ es.map (fun e => (e.i, e.j)) = Os.map (fun e => (e.i, e.j)) ∧ ∀ e ∈ es, Base e := by
  intro Os
  induction Os with
  | nil =>
    intro K r h
    cases h
    refine ⟨Nat.le_refl _, fun es h => ?_⟩
    cases h
    simp
  | cons o Os ih =>
    intro K r h
    rw [List.map_cons, processClosures] at h
    have triv : ∀ {K : Nat} {r : Option (List (ClosureLimit D))} {k : Nat}, k ≤ (o :: Os).length →
        Except.ok (ε := Err) (k, none) = .ok (K, r) → K ≤ (o :: Os).length ∧ ∀ es, r = some es →
        K = (o :: Os).length ∧ es.map (fun e => (e.i, e.j)) = (o :: Os).map (fun e => (e.i, e.j)) ∧ ∀ e ∈ es, Base e := by
      intro K r k hk h
      cases h
      exact ⟨hk, fun es h => by cases h⟩
    split at h
    · exact triv (Nat.zero_le _) h
    rename_i hi
    split at h
    · exact triv (Nat.zero_le _) h
    rename_i hj
    split at h
    · exact triv (Nat.zero_le _) h
    rename_i hne
    split at h
    · exact triv (Nat.zero_le _) h
    obtain ⟨⟨k, it'⟩, h1, h⟩ := bind_ok h
    obtain ⟨m, _, h1⟩ := bind_ok h1
    cases h1
    obtain ⟨mi, _, h⟩ := bind_ok h
    obtain ⟨mj, _, h⟩ := bind_ok h
    obtain ⟨l', _, h⟩ := bind_ok h
    simp only at h
    split at h
    · exact triv (by simp [ClosureLimit.ofLimit, Closure.objects]) h
    obtain ⟨⟨k', r'⟩, h2, h⟩ := bind_ok h
    cases h
    obtain ⟨hk, hr⟩ := ih h2
    refine ⟨?_, fun es hes => ?_⟩
    · simp only [ClosureLimit.ofLimit, Closure.objects, List.length_cons]
      omega
    · cases r' with
      | none => cases hes
      | some es' =>
        cases hes
        obtain ⟨hk', hm, hb⟩ := hr es' rfl
        refine ⟨?_, ?_, ?_⟩
        · simp only [ClosureLimit.ofLimit, Closure.objects, List.length_cons]
          omega
        · simp [hm, ClosureLimit.ofLimit]
        · intro e he
          rcases List.mem_cons.1 he with rfl | he
          · exact ⟨rfl, Decidable.not_not.1 hne, (Decidable.not_not.1 hi).1, (Decidable.not_not.1 hj).1⟩
          · exact hb e he

theorem norm_base {imax : Int} {e : ClosureLimit D} (hb : Base e) {k : Nat} {e' : ClosureLimit D}
    (h : (if e.i < e.j then e.reverse imax else .ok (0, e)) = .ok (k, e')) :
    ((k = 0 ∧ e'.fn.size = ⟨2, 1, 2⟩) ∨ (k = 2 ∧ e'.fn.size = ⟨3, 1, 3⟩)) ∧ e'.j < e'.i ∧
      ∀ q : Nat × Nat, q.2 < q.1 → (onPair q e.i e.j = true ↔ (e'.i, e'.j) = q) := by
  obtain ⟨hs, hne, _, _⟩ := hb
  have ho := e.fn.size_objects
  rw [hs] at ho
  split at h
  · rename_i hlt
    obtain ⟨l', _, h⟩ := bind_ok h
    obtain ⟨u', _, h⟩ := bind_ok h
    cases h
    refine ⟨.inr ⟨ho.symm, ?_⟩, hlt, fun q hq => ?_⟩
    · simp [Closure.size, hs]
    · obtain ⟨a, b⟩ := q
      simp only [onPair, Bool.or_eq_true, Bool.and_eq_true, beq_iff_eq, Prod.mk.injEq] at hq ⊢
      omega
  · rename_i hlt
    cases h
    refine ⟨.inl ⟨rfl, hs⟩, by omega, fun q hq => ?_⟩
    obtain ⟨a, b⟩ := q
    simp only [onPair, Bool.or_eq_true, Bool.and_eq_true, beq_iff_eq, Prod.mk.injEq] at hq ⊢
    omega

/-- what is true of the map when `c k` pairs on `k` have been merged into it -/
structure CInv (mp : ClosureMap D) (c : Nat × Nat → Nat) : Prop where
  sorted : KeySorted mp
  keys : ∀ kv ∈ mp, kv.1.2 < kv.1.1
  absent : ∀ k : Nat × Nat, k.2 < k.1 → closureFind mp k = none → c k = 0
  present : ∀ k v, closureFind mp k = some v → v.i = k.1 ∧ v.j = k.2 ∧ Shape v.fn (c k)

theorem CInv.set {mp : ClosureMap D} {c : Nat × Nat → Nat} (h : CInv mp c) {v : ClosureLimit D} (hv : v.j < v.i) {c' : Nat × Nat → Nat}
    (hc : ∀ k : Nat × Nat, k.2 < k.1 → k ≠ (v.i, v.j) → c' k = c k) (hs : Shape v.fn (c' (v.i, v.j))) : CInv (closureSet mp (v.i, v.j) v) c' := by
  refine ⟨h.sorted.set _ _, fun kv hkv => ?_, fun k hk hf => ?_, fun k w hf => ?_⟩
  · rcases mem_closureSet hkv with rfl | hkv
    · exact hv
    · exact h.keys kv hkv
  · rw [closureFind_set] at hf
    split at hf
    · cases hf
    · rename_i hne
      rw [hc k hk (Ne.symm hne)]
      exact h.absent k hk hf
  · rw [closureFind_set] at hf
    split at hf
    · rename_i he
      cases hf
      subst he
      exact ⟨rfl, rfl, hs⟩
    · rename_i hne
      obtain ⟨h1, h2, h3⟩ := h.present k w hf
      have hk : k.2 < k.1 := by
        clear h1 h2 h3
        have : ∀ {m : ClosureMap D}, closureFind m k = some w → ∃ kv ∈ m, kv.1 = k := by
          intro m
          induction m with
          | nil => intro h; cases h
          | cons a m ih =>
            intro h
            rw [closureFind] at h
            split at h
            · exact ⟨a, List.mem_cons_self, by assumption⟩
            · obtain ⟨kv, h1, h2⟩ := ih h
              exact ⟨kv, List.mem_cons_of_mem _ h1, h2⟩
        obtain ⟨kv, h1, rfl⟩ := this hf
        exact h.keys kv h1
      rw [hc k hk (Ne.symm hne)]
      exact ⟨h1, h2, h3⟩

theorem mergeClosures_count {imax : Int} : ∀ (es : List (ClosureLimit D)) {mp : ClosureMap D} {c : Nat × Nat → Nat} {T K : Nat} {r : Option (ClosureMap D)},
    (∀ e ∈ es, Base e) → CInv mp c → (∀ k, c k ≤ T) → mergeClosures imax es mp = .ok (K, r) →
    K + (2 * T ^ 2 + 5 * T) ≤ 2 * (T + es.length) ^ 2 + 5 * (T + es.length) ∧
    ∀ mp', r = some mp' → CInv mp' (fun k => c k + es.countP fun e => onPair k e.i e.j) ∧
      ∀ k : Nat × Nat, k.2 < k.1 → 3 * ((c k + es.countP fun e => onPair k e.i e.j) * (c k + (es.countP fun e => onPair k e.i e.j) + 1)) ≤
        2 * K + 3 * (c k * (c k + 1)) := by
  intro es
  induction es with
  | nil =>
    intro mp c T K r _ hi _ h
    cases h
    refine ⟨by simp, fun mp' h => ?_⟩
    cases h
    exact ⟨by simpa using hi, fun k _ => by simp⟩
  | cons e es ih =>
    intro mp c T K r hb hi hT h
    rw [mergeClosures_cons] at h
    obtain ⟨⟨k1, e'⟩, h1, h⟩ := bind_ok h
    have hbe := hb e List.mem_cons_self
    obtain ⟨hsz, hlt, hon⟩ := norm_base hbe h1
    have ho : e.fn.objects = 2 := by rw [← e.fn.size_objects, hbe.1]
    have ho' : (k1 = 0 ∧ e'.fn.objects = 2) ∨ (k1 = 2 ∧ e'.fn.objects = 3) := by
      rw [← e'.fn.size_objects]
      rcases hsz with ⟨h, h'⟩ | ⟨h, h'⟩ <;> rw [h', h] <;> simp
    let c' : Nat × Nat → Nat := fun k => c k + if onPair k e.i e.j then 1 else 0
    have hcount : ∀ k, c k + (e :: es).countP (fun e => onPair k e.i e.j) = c' k + es.countP fun e => onPair k e.i e.j := by
      intro k
      rw [List.countP_cons]
      show _ = c k + _ + _
      omega
    have hT' : ∀ k, c' k ≤ T + 1 := by
      intro k
      have := hT k
      show c k + _ ≤ _
      split <;> omega
    have hc' : ∀ k : Nat × Nat, k.2 < k.1 → k ≠ (e'.i, e'.j) → c' k = c k := by
      intro k hk hne
      show c k + _ = c k
      rw [if_neg]
      · rfl
      · exact fun h => hne ((hon k hk).1 h).symm
    have hc1 : c' (e'.i, e'.j) = c (e'.i, e'.j) + 1 := by
      show c _ + _ = _
      rw [if_pos ((hon (e'.i, e'.j) hlt).2 rfl)]
    have hb' : ∀ e ∈ es, Base e := fun x hx => hb x (List.mem_cons_of_mem _ hx)
    -- the rest, given the cost of this step
    have fin : ∀ {mp' : ClosureMap D} {q : Nat}, CInv mp' c' → q ≤ 4 * T + 7 → 3 * (c (e'.i, e'.j) + 1) ≤ q →
        (mergeClosures imax es mp' >>= fun s => Except.ok (q + s.1, s.2)) = .ok (K, r) →
        K + (2 * T ^ 2 + 5 * T) ≤ 2 * (T + (e :: es).length) ^ 2 + 5 * (T + (e :: es).length) ∧
        ∀ mp', r = some mp' → CInv mp' (fun k => c k + (e :: es).countP fun e => onPair k e.i e.j) ∧
          ∀ k : Nat × Nat, k.2 < k.1 →
            3 * ((c k + (e :: es).countP fun e => onPair k e.i e.j) * (c k + ((e :: es).countP fun e => onPair k e.i e.j) + 1)) ≤
            2 * K + 3 * (c k * (c k + 1)) := by
      intro mp' q hi' hq hq' h
      obtain ⟨⟨k3, r'⟩, h3, h⟩ := bind_ok h
      cases h
      obtain ⟨a, b⟩ := ih hb' hi' hT' h3
      refine ⟨?_, fun mp'' hm => ?_⟩
      · rw [List.length_cons]
        have : T + (es.length + 1) = T + 1 + es.length := by omega
        rw [this]
        nlinarith
      · obtain ⟨b1, b2⟩ := b mp'' hm
        refine ⟨?_, fun k hk => ?_⟩
        · simpa only [hcount] using b1
        · rw [hcount k]
          have := b2 k hk
          by_cases hek : k = (e'.i, e'.j)
          · subst hek
            rw [hc1] at this ⊢
            nlinarith
          · rw [hc' k hk hek] at this ⊢
            simp only
            omega
    simp only at h
    cases hf : closureFind mp (e'.i, e'.j) with
    | none =>
      rw [hf] at h
      simp only at h
      have h0 := hi.absent (e'.i, e'.j) hlt hf
      refine fin (hi.set hlt hc' ?_) ?_ ?_ h
      · rw [hc1, h0]
        rcases hsz with ⟨_, h⟩ | ⟨_, h⟩ <;> constructor <;> simp [h]
      · rw [ho]; omega
      · rw [h0, ho]; omega
    | some v =>
      rw [hf] at h
      simp only at h
      obtain ⟨hvi, hvj, hvs⟩ := hi.present _ v hf
      obtain ⟨⟨k2, v', b⟩, h2, h⟩ := bind_ok h
      unfold ClosureLimit.merge at h2
      simp only at h2
      split at h2
      · have hov := v.fn.size_objects
        have := hT (e'.i, e'.j)
        have g1 := hvs.objects_ge
        have g2 := hvs.objects_le
        rw [hov] at g1 g2
        cases h2
        simp only at h
        split at h
        · cases h
          refine ⟨?_, fun _ h => by cases h⟩
          have h5 : k1 + e'.fn.objects ≤ 5 := by omega
          have h6 : 4 * T + 7 + (2 * T ^ 2 + 5 * T) ≤ 2 * (T + (es.length + 1)) ^ 2 + 5 * (T + (es.length + 1)) := by nlinarith
          rw [ho, List.length_cons]
          omega
        · have e1 : (v.i, v.j) = (e'.i, e'.j) := by rw [hvi, hvj]
          rw [← e1] at h
          refine fin (hi.set (v := { v with l := max v.l e'.l, u := min v.u e'.u, fn := .sum v.fn e'.fn }) ?_ ?_ ?_) ?_ ?_ h
          · show v.j < v.i
            rw [hvi, hvj]; exact hlt
          · show ∀ k : Nat × Nat, k.2 < k.1 → k ≠ (v.i, v.j) → _
            rw [e1]; exact hc'
          · show Shape (Closure.sum v.fn e'.fn) (c' (v.i, v.j))
            rw [e1, hc1]
            obtain ⟨s1, s2, s3, s4, s5⟩ := hvs
            rcases hsz with ⟨_, h⟩ | ⟨_, h⟩ <;> constructor <;> simp only [Closure.size, h] <;> omega
          · rw [ho]; omega
          · rw [ho]; omega
      · cases h2

theorem musClosures_user {Mus : List (MuLimit D)} {cnt : Nat} : ∀ {i : Nat} {r : List (ClosureLimit D)}, musClosures Mus i cnt = .ok r →
    ∀ e ∈ r, e.j = 0 ∧ e.fn.size = ⟨1, 1, 1⟩ := by
  induction cnt with
  | zero => intro i r h; cases h; simp
  | succ cnt ih =>
    intro i r h
    obtain ⟨m, _, h⟩ := bind_ok h
    obtain ⟨r', h1, h⟩ := bind_ok h
    cases h
    intro e he
    rcases List.mem_cons.1 he with rfl | he
    · exact ⟨rfl, rfl⟩
    · exact ih h1 e he

theorem closureLimits_count [Add D] [LT D] [DecidableLT D] {imax : Int} {fuel n : Nat} {Mus : List (MuLimit D)} {Os : List (OmegaLimit D)}
    {K : Nat} {r : Option (List (ClosureLimit D))} (h : closureLimits imax fuel n Mus Os = .ok (K, r)) :
    K ≤ 2 * Os.length ^ 2 + 6 * Os.length ∧ ∀ es, r = some es →
      (∀ e ∈ es, (e.j = 0 ∧ e.fn.size = ⟨1, 1, 1⟩) ∨ (e.j < e.i ∧ Shape e.fn (Os.countP fun o => onPair (e.i, e.j) o.i o.j))) ∧
      (∀ o ∈ Os, 1 ≤ o.i ∧ 1 ≤ o.j) ∧
      ∀ a b : Nat, b < a → 3 * ((Os.countP fun o => onPair (a, b) o.i o.j) * ((Os.countP fun o => onPair (a, b) o.i o.j) + 1)) ≤ 2 * K := by
  obtain ⟨⟨k, r1⟩, h1, h⟩ := bind_ok h
  obtain ⟨p1, p2⟩ := processClosures_base imax fuel n Mus Os h1
  cases r1 with
  | none =>
    cases h
    exact ⟨by nlinarith, fun _ h => by cases h⟩
  | some es =>
    obtain ⟨⟨k', r2⟩, h2, h⟩ := bind_ok h
    obtain ⟨q1, q2, q3⟩ := p2 es rfl
    have hlen : es.length = Os.length := by
      have := congrArg List.length q2
      simpa using this
    have hcnt : ∀ k : Nat × Nat, es.countP (fun o => onPair k o.i o.j) = Os.countP fun o => onPair k o.i o.j := by
      intro k
      have a : es.countP (fun o => onPair k o.i o.j) = (es.map (fun e => (e.i, e.j))).countP fun q => onPair k q.1 q.2 := by
        rw [List.countP_map]; rfl
      have b : Os.countP (fun o => onPair k o.i o.j) = (Os.map (fun e => (e.i, e.j))).countP fun q => onPair k q.1 q.2 := by
        rw [List.countP_map]; rfl
      rw [a, b, q2]
    have hi : CInv ([] : ClosureMap D) (fun _ => 0) :=
      ⟨List.Pairwise.nil, by simp, fun _ _ _ => rfl, fun k v h => by cases h⟩
    obtain ⟨m1, m2⟩ := mergeClosures_count es (T := 0) q3 hi (fun _ => Nat.le_refl 0) h2
    rw [hlen] at m1
    have hK : k + k' ≤ 2 * Os.length ^ 2 + 6 * Os.length := by
      simp only [Nat.zero_add] at m1
      omega
    cases r2 with
    | none =>
      cases h
      exact ⟨hK, fun _ h => by cases h⟩
    | some mp =>
      obtain ⟨mus, h3, h⟩ := bind_ok h
      cases h
      refine ⟨hK, fun es' hes => ?_⟩
      cases hes
      obtain ⟨g1, g2⟩ := m2 mp rfl
      refine ⟨fun e he => ?_, fun o ho => ?_, fun a b hab => ?_⟩
      · rcases List.mem_append.1 he with he | he
        · obtain ⟨kv, hkv, rfl⟩ := List.mem_map.1 he
          obtain ⟨f1, f2, f3⟩ := g1.present _ _ (g1.sorted.find hkv)
          right
          rw [f1, f2]
          refine ⟨g1.keys kv hkv, ?_⟩
          have := hcnt kv.1
          simpa [this] using f3
        · exact .inl (musClosures_user h3 e he)
      · have : (o.i, o.j) ∈ es.map fun e => (e.i, e.j) := q2 ▸ List.mem_map_of_mem ho
        obtain ⟨e, he, heq⟩ := List.mem_map.1 this
        have h1 := congrArg Prod.fst heq
        have h2 := congrArg Prod.snd heq
        simp only at h1 h2
        rw [← h1, ← h2]
        exact (q3 e he).2.2
      · have := g2 (a, b) hab
        rw [hcnt] at this
        simp only [Nat.zero_add, Nat.zero_mul, Nat.mul_zero, Nat.add_zero] at this
        omega

end ProblemSolver
end AHO
