import Verif.Proof.LCTAccess
/-!
# The public operations of the link-cut tree
-/

namespace AHO.LCT
open AHO T
set_option linter.unusedSectionVars false

variable {K : Type} [AddCommGroup K] [LinearOrder K] [IsOrderedAddMonoid K]
variable {R : Type} [Add R] [Zero R] [BEq R] [LT R] [LE R] [DecidableLT R] [DecidableLE R] {E : Emb K R}

/-- The heap represents the forest `par` with the values `w`, and no addition is going to be inexact. -/
def RepE (E : Emb K R) (h : Heap K) (par : Nat → Option Nat) (w : Nat → K) : Prop := ∃ tr, Inv E h par w tr

/-- The heap represents the forest `par` with the values `w`. -/
def Rep (h : Heap K) (par : Nat → Option Nat) (w : Nat → K) : Prop := RepE (Emb.id K) h par w

theorem wr_emb (E : Emb K R) {h : Heap K} {x : Nat} (hx : x < h.size) (n : LNode K) {n' : LNode R} (e : n' = E.n n) :
    (E.h h).wr x n' = .ok (E.h (h.set x n)) := by
  rw [wr_sim E h x n e, Vec.wr_ok _ hx, map_ok]

/-- `v` lies on the way from `x` to its root -/
abbrev OnPath (par : Nat → Option Nat) (x v : Nat) : Prop := Relation.ReflTransGen (Up par) x v

theorem chain_up {par : Nat → Option Nat} : ∀ {l : List Nat} {x : Nat},
    (l ++ [x]).IsChain (fun a b => par b = some a) → (l ++ [x]).head?.bind par = none →
    ∀ v, v ∈ l ++ [x] ↔ OnPath par x v := by
  intro l
  induction l using List.reverseRecOn with
  | nil =>
    intro x _ hr v
    have hr : par x = none := by simpa using hr
    constructor
    · intro hv
      have : v = x := by simpa using hv
      subst this; exact .refl
    · intro hv
      rcases hv.cases_head with rfl | ⟨c, hc, -⟩
      · simp
      · rw [Up, hr] at hc; simp at hc
  | append_singleton l y ih =>
    intro x hc hr v
    have hc' := List.isChain_append.1 hc
    have hyx : par x = some y := by simpa using hc'.2.2 y (by simp) x (by simp)
    have ih' := ih hc'.1 (by
      rw [List.head?_append] at hr
      cases hh : (l ++ [y]).head? with
      | none => simp at hh
      | some z => rw [hh] at hr; simpa using hr)
    rw [List.mem_append, ih']
    constructor
    · rintro (h | h)
      · exact .head hyx h
      · have : v = x := by simpa using h
        subst this; exact .refl
    · intro hv
      rcases hv.cases_head with rfl | ⟨c, hc, h⟩
      · simp
      · rw [Up, hyx] at hc; cases hc; exact .inl h

theorem repE_init (h0 : E.I 0) (n : Nat) : RepE E (Vec.replicate n (initNode : LNode K)) (fun _ => none) (fun _ => 0) := by
  refine ⟨fun v => node nil v nil, fun v hv => ?_, by simp, ?_⟩
  · have hv' : v < n := hv
    constructor
    · simp
    · intro u hu; have : u = v := by simpa using hu
      rw [this]
    · simp
    · simp
    · simp [Shape, Vec.replicate, initNode, hv']
    · exact ⟨⟨rfl, h0, 0, h0, by simpa [Vec.replicate, initNode] using h0⟩, trivial, trivial⟩
  · intro v hv
    obtain ⟨b, hb, -⟩ := Relation.TransGen.head'_iff.1 hv
    simp [Up] at hb

theorem leftmost_spec {h : Heap K} : ∀ {t f x fuel}, Shape h t f → t.rt = some x → t.io.length ≤ fuel →
    ∃ r, leftmost h fuel x = .ok r ∧ t.io.head? = some r := by
  intro t
  induction t with
  | nil => intro f x fuel _ hx; simp at hx
  | node l y r ihl ihr =>
    intro f x fuel hs hx hf
    obtain ⟨h1, h2, h3, h4, h5, h6⟩ := hs
    have : y = x := by simpa using hx
    subst this
    simp only [io_node, List.length_append, List.length_cons] at hf
    obtain ⟨fuel, rfl⟩ : ∃ k, fuel = k + 1 := ⟨fuel - 1, by omega⟩
    simp only [leftmost, Vec.rd_ok h1, ok_bind, h3]
    cases l with
    | nil => exact ⟨y, by simp, by simp⟩
    | node l1 z l2 =>
      obtain ⟨r', hr, hr'⟩ := ihl (x := z) (fuel := fuel) h5 rfl (by omega)
      refine ⟨r', by simpa using hr, ?_⟩
      rw [io_node, List.head?_append, hr']; rfl

theorem RepE.findRoot {h : Heap K} {par w} (hR : RepE E h par w) {x fuel} (hx : x < h.size)
    (hf : h.size + 1 ≤ fuel) : ∃ r h', findRoot fuel h x = .ok (r, h') ∧ h'.size = h.size ∧ RepE E h' par w ∧
      r < h.size ∧ OnPath par x r ∧ par r = none ∧ LCT.findRoot fuel (E.h h) x = .ok (r, E.h h') := by
  obtain ⟨tr, I⟩ := hR
  obtain ⟨h', tr', A, e1, e2, I', e3, e4, e5, e6, e7⟩ := I.access hx hf
  have L := I'.loc x (by omega)
  have hl := I'.length_le (v := x) (by omega)
  obtain ⟨r, r1, r2⟩ := leftmost_spec (x := x) (fuel := fuel) L.shape (by rw [e3]; rfl) (by omega)
  have hc := L.chain
  rw [e3] at r2 hc
  have hrm : r ∈ (node A x nil).io := List.mem_of_mem_head? (by rw [r2]; rfl)
  refine ⟨r, h', by simp [LCT.findRoot, e1, r1], e2, ⟨tr', I'⟩, ?_, ?_, ?_, by simp [LCT.findRoot, e7, leftmost_sim, r1]⟩
  · have := L.shape.lt (k := r) (by rw [e3]; exact hrm); omega
  · exact (chain_up hc e6 r).1 hrm
  · rw [r2] at e6; exact e6

theorem acyc_link {par : Nat → Option Nat} (h : Acyc par) {x f} (hx : par x = none) (hr : ¬ OnPath par f x) :
    Acyc (Function.update par x (some f)) := by
  have key : ∀ a b, OnPath (Function.update par x (some f)) a b →
      OnPath par a b ∨ (OnPath par a x ∧ OnPath par f b) := by
    intro a b hab
    induction hab using Relation.ReflTransGen.head_induction_on with
    | refl => exact .inl .refl
    | @head a c hac _ ih =>
      by_cases hax : a = x
      · subst hax
        have : c = f := by simpa [Up, eq_comm] using hac
        subst this
        rcases ih with ih | ih
        · exact .inr ⟨.refl, ih⟩
        · exact .inr ⟨.refl, ih.2⟩
      · have hac' : par a = some c := by simpa [Up, hax] using hac
        rcases ih with ih | ih
        · exact .inl (.head hac' ih)
        · exact .inr ⟨.head hac' ih.1, ih.2⟩
  intro v hv
  obtain ⟨c, hc, hcv⟩ := Relation.TransGen.head'_iff.1 hv
  by_cases hvx : v = x
  · subst hvx
    have : c = f := by simpa [Up, eq_comm] using hc
    subst this
    rcases key _ _ hcv with k | k
    · exact hr k
    · exact hr k.1
  · have hc' : par v = some c := by simpa [Up, hvx] using hc
    rcases key _ _ hcv with k | k
    · exact h v (.head' hc' k)
    · exact hr (k.2.trans (.head hc' k.1))

theorem acyc_cut {par : Nat → Option Nat} (h : Acyc par) (x) : Acyc (Function.update par x none) := by
  intro v hv
  refine h v (Relation.TransGen.mono (fun a b hab => ?_) v v hv)
  by_cases hax : a = x
  · subst hax; simp [Up] at hab
  · simpa [Up, hax] using hab

theorem Inv.setFa {h : Heap K} {par w tr} (I : Inv E h par w tr) {x f fuel} (hx : x < h.size) (hfs : f < h.size)
    (hp : par x = none) (hr : ¬ OnPath par f x)
    (hf : h.size + 1 ≤ fuel) : ∃ h', setFa fuel h x f = .ok h' ∧ h'.size = h.size ∧
      (∃ tr' b, Inv E h' (Function.update par x (some f)) w tr' ∧ tr' x = node nil x b) ∧
      LCT.setFa fuel (E.h h) x f = .ok (E.h h') := by
  obtain ⟨h1, tr1, a, b, e1, e2, I1, e4, e5, e6, e7, e8, e9, e10⟩ := I.splay (fuel := fuel) hx (by omega)
  have L := I1.loc x (by omega)
  have hch := L.chain
  have hsh := L.shape
  have hnd := L.nodup
  rw [e4] at hch hsh hnd
  have ha : a = nil := by
    rw [← io_eq_nil]
    by_contra hne
    rw [io_node, List.isChain_append] at hch
    obtain ⟨z, hz⟩ : ∃ z, a.io.getLast? = some z := by
      cases hh : a.io.getLast? with
      | none => exact absurd (List.getLast?_eq_none_iff.1 hh) hne
      | some z => exact ⟨z, rfl⟩
    have := hch.2.2 z hz x (by simp)
    rw [hp] at this; simp at this
  subst ha
  have hfa : (h1.get x).fa = none := by rw [hsh.2.1]; simpa using hp
  have hsm := L.same
  rw [e4] at hsm
  simp only [io_node, io_nil, List.nil_append, List.mem_cons, List.nodup_cons] at hsm hnd
  refine ⟨h1.set x { h1.get x with fa := some f }, ?_, e2, ⟨tr1, b, ⟨fun v hv => ?_, fun v u hvu hv => ?_,
    acyc_link I.acyc hp hr⟩, e4⟩, ?_⟩
  rotate_right
  · simp only [LCT.setFa, e10, ok_bind, rd_sim, Vec.rd_ok (show x < h1.size by omega), map_ok, emb_fa, hfa, if_true]
    exact wr_emb E (by omega) { h1.get x with fa := some f } rfl
  · simp only [LCT.setFa, e1, ok_bind, Vec.rd_ok (show x < h1.size by omega), hfa, if_true]
    rw [Vec.wr_ok _ (by omega)]
  · have hv1 : v < h1.size := hv
    have Lv := I1.loc v hv1
    by_cases hm : v ∈ (node nil x b).io
    · have et : tr1 v = node nil x b := by rw [← e4]; exact L.same v (by rw [e4]; exact hm)
      constructor
      · exact Lv.mem
      · exact Lv.same
      · exact Lv.nodup
      · rw [et]
        simp only [io_node, io_nil, List.nil_append] at hch ⊢
        rw [List.isChain_iff_getElem] at hch ⊢
        intro i hi
        have := hch i hi
        rw [Function.update_of_ne, this]
        intro e
        simp only [List.getElem_cons_succ] at e
        exact hnd.1 (e ▸ List.getElem_mem _)
      · rw [et]
        simp only [io_node, io_nil, List.nil_append, List.head?_cons, Option.bind_some,
          Function.update_self]
        refine hsh.reparent rfl (fun k hk => ?_) (fun z hz => ?_) ?_
        · by_cases hkx : k = x
          · subst hkx; simp
          · rw [Vec.set_get_ne _ _ hkx]; simp
        · have : x = z := by simpa using hz
          subst this; simp
        · simpa using hnd
      · refine Lv.good.congr (fun k _ => ?_) (fun _ _ => rfl)
        by_cases hkx : k = x
        · subst hkx; simp [SameVal]
        · rw [SameVal, Vec.set_get_ne _ _ hkx]; simp
    · have hd : ∀ u ∈ (tr1 v).io, u ≠ x := by
        rintro u hu rfl
        have := Lv.same u hu
        rw [e4] at this
        exact hm (by rw [this]; exact Lv.mem)
      exact Lv.congr rfl (fun _ _ => rfl) (fun u hu => Vec.set_get_ne _ _ (hd u hu))
        (fun u hu => Function.update_of_ne (hd u hu) _ _) (fun _ _ => rfl)
  · have hv1 : v < h1.size := hv
    show u < h1.size
    by_cases hvx : v = x
    · subst hvx; simp at hvu; omega
    · rw [Function.update_of_ne hvx] at hvu
      exact I1.range v u hvu hv1

theorem RepE.setFa {h : Heap K} {par w} (hR : RepE E h par w) {x f fuel} (hx : x < h.size) (hfs : f < h.size)
    (hp : par x = none) (hr : ¬ OnPath par f x)
    (hf : h.size + 1 ≤ fuel) : ∃ h', setFa fuel h x f = .ok h' ∧ h'.size = h.size ∧
      RepE E h' (Function.update par x (some f)) w ∧ LCT.setFa fuel (E.h h) x f = .ok (E.h h') := by
  obtain ⟨tr, I⟩ := hR
  obtain ⟨h', e1, e2, ⟨tr', b, e3, -⟩, e4⟩ := I.setFa hx hfs hp hr hf
  exact ⟨h', e1, e2, ⟨tr', e3⟩, e4⟩

/-- `set_fa` at a node directly after `set_fa` at it runs into its assertion. -/
theorem RepE.setFa_twice {h : Heap K} {par w} (hR : RepE E h par w) {x f g fuel} (hx : x < h.size) (hfs : f < h.size)
    (hp : par x = none) (hr : ¬ OnPath par f x) (hf : h.size + 1 ≤ fuel) {h' : Heap K}
    (hh : LCT.setFa fuel h x f = .ok h') : LCT.setFa fuel h' x g = .error .assertFail := by
  obtain ⟨tr, I⟩ := hR
  obtain ⟨h1, e1, e2, ⟨tr1, b, I1, e3⟩, -⟩ := I.setFa hx hfs hp hr hf
  obtain rfl : h' = h1 := by rw [hh] at e1; exact Except.ok.inj e1
  obtain ⟨h2, tr2, c, d, f1, f2, I2, f4, f5, -⟩ := I1.splay (x := x) (fuel := fuel) (by omega) (by omega)
  have hsh := (I2.loc x (by omega)).shape
  rw [f4, f5, e3] at hsh
  have hfa : (h2.get x).fa = some f := by rw [hsh.2.1]; simp
  simp only [LCT.setFa, f1, ok_bind, Vec.rd_ok (show x < h2.size by omega), hfa]
  rfl

theorem RepE.cut {h : Heap K} {par w} (hR : RepE E h par w) {x fuel} (hx : x < h.size)
    (hp : par x ≠ none) (hf : h.size + 1 ≤ fuel) : ∃ h', cut fuel h x = .ok h' ∧ h'.size = h.size ∧
      RepE E h' (Function.update par x none) w ∧ LCT.cut fuel (E.h h) x = .ok (E.h h') := by
  obtain ⟨tr, I⟩ := hR
  obtain ⟨h1, tr1, A, e1, e2, I1, e4, e6, e7, e8, e10⟩ := I.access hx hf
  have L := I1.loc x (by omega)
  have hch := L.chain
  have hsh := L.shape
  have hnd := L.nodup
  rw [e4] at hch hsh hnd
  cases A with
  | nil => exact absurd (by simpa using e8) hp
  | node l c r =>
    obtain ⟨s1, s2, s3, s4, s5, s6⟩ := hsh
    have hc : c < h1.size := s5.1
    simp only [io_node, io_nil, List.append_assoc, List.cons_append] at hnd
    set A := node l c r with hA
    have hndA : A.io.Nodup := by
      have : (A.io ++ [x]).Nodup := by simpa [hA] using hnd
      exact (List.nodup_append.1 this).1
    have hxA : x ∉ A.io := by
      have : (A.io ++ [x]).Nodup := by simpa [hA] using hnd
      intro hm
      exact (List.nodup_append.1 this).2.2 x hm x (by simp) rfl
    have hcA : c ∈ A.io := by simp [hA]
    have hcx : c ≠ x := by rintro rfl; exact hxA hcA
    set h2 := h1.set c { h1.get c with fa := none } with h2def
    have h2x : h2.get x = h1.get x := Vec.set_get_ne _ _ hcx.symm
    set h3 := h2.set x { h2.get x with ch0 := none } with h3def
    have h3x : h3.get x = { h1.get x with ch0 := none } := by simp [h3def, h2x]
    have h3c : h3.get c = { h1.get c with fa := none } := by
      rw [h3def, Vec.set_get_ne _ _ hcx, h2def]; simp
    have h3o : ∀ k, k ≠ x → k ≠ c → h3.get k = h1.get k := by
      intro k k1 k2; rw [h3def, Vec.set_get_ne _ _ k1, h2def, Vec.set_get_ne _ _ k2]
    have hs3 : Shape h3 (node nil x nil) none := by
      refine ⟨s1, ?_, ?_, ?_, trivial, trivial⟩
      · rw [h3x]; rw [s2, e8]
      · rw [h3x]; rfl
      · rw [h3x]; exact s4
    obtain ⟨⟨g1, gI, -⟩, -, g3, g4⟩ := e6
    simp only [e7, List.sum_nil, add_zero] at g1 g3 g4
    rw [← g1] at gI
    set h4 := pushUpH h3 x with h4def
    have h4o : ∀ k, k ≠ x → h4.get k = h3.get k := fun k hk => pushUpH_ne _ hk
    let tr' := fun u => if u = x then node nil x nil else if u ∈ A.io then A else tr1 u
    have t1 : tr' x = node nil x nil := by simp [tr']
    have t2 : ∀ u ∈ A.io, tr' u = A := fun u hu => by
      have : u ≠ x := by rintro rfl; exact hxA hu
      simp [tr', this, hu]
    have t3 : ∀ u, u ≠ x → u ∉ A.io → tr' u = tr1 u := fun u hu hu' => by simp [tr', hu, hu']
    refine ⟨h4, ?_, e2, ⟨tr', fun v hv => ?_, fun v u hvu hv => ?_, acyc_cut I.acyc x⟩, ?_⟩
    rotate_right
    · unfold LCT.cut
      rw [e10, ok_bind, rd_sim, Vec.rd_ok (by omega), map_ok, ok_bind, emb_ch0, s3]
      simp only [hA, rt_node]
      have hw1 : (E.h h1).wr c { E.n (h1.get c) with fa := none } = .ok (E.h h2) := wr_emb E hc _ rfl
      have hw2 : (E.h h2).wr x { E.n (h2.get x) with ch0 := none } = .ok (E.h h3) := wr_emb E (h := h2) s1 { h2.get x with ch0 := none } rfl
      rw [rd_sim, Vec.rd_ok hc, map_ok, ok_bind]
      refine (congrArg (· >>= _) hw1).trans ?_
      simp only [ok_bind]
      rw [rd_sim, Vec.rd_ok (by exact s1), map_ok, ok_bind]
      refine (congrArg (· >>= _) hw2).trans ?_
      exact pushUp_simE (w := w) hs3 trivial trivial ⟨by rw [h3x]; exact g1, gI⟩
    · unfold LCT.cut
      rw [e1, ok_bind, Vec.rd_ok (by omega), ok_bind, s3]
      simp only [hA, rt_node]
      rw [Vec.rd_ok hc, ok_bind, Vec.wr_ok _ hc, ok_bind, Vec.rd_ok (by exact s1), ok_bind,
        Vec.wr_ok _ (by exact s1), ok_bind]
      exact pushUp_shape hs3
    · have hv1 : v < h1.size := hv
      by_cases c1 : v = x
      · subst c1
        constructor <;> rw [t1]
        · simp
        · intro u hu; have : u = v := by simpa using hu
          rw [this, t1]
        · simp
        · simp
        · simp only [io_node, io_nil, List.nil_append, List.head?_cons, Option.bind_some,
            Function.update_self]
          exact hs3.congr rfl fun k _ => pushUpH_ptr _ _ _
        · refine ⟨⟨?_, gI, w v, gI, ?_⟩, trivial, trivial⟩
          · rw [h4def, (pushUpH_val _ _ _).1, h3x]; exact g1
          · rw [h4def, (pushUpH_val _ _ _).2, h3x]
            simp only [e7, add_zero]; exact gI
      by_cases c2 : v ∈ A.io
      · have hup : ∀ u ∈ A.io, Function.update par x none u = par u := fun u hu =>
          Function.update_of_ne (by rintro rfl; exact hxA hu) _ _
        rw [io_node, List.isChain_append] at hch
        have et := t2 v c2
        constructor <;> rw [et]
        · exact c2
        · exact t2
        · exact hndA
        · have := hch.1
          rw [List.isChain_iff_getElem] at this ⊢
          intro i hi
          rw [hup _ (List.getElem_mem _)]
          exact this i hi
        · have e9 : A.io.head?.bind (Function.update par x none) = none := by
            cases hl : A.io with
            | nil => rfl
            | cons z l' =>
              have : par z = none := by
                rw [io_node, hl] at e8; simpa using e8
              simp [hup z (by simp [hl]), this]
          rw [e9]
          refine s5.reparent rfl (fun k hk => ?_) (fun z hz => ?_) hndA
          · have hkx : k ≠ x := by rintro rfl; exact hxA hk
            rw [h4o k hkx]
            by_cases hkc : k = c
            · subst hkc; rw [h3c]; simp [hA]
            · rw [h3o k hkx hkc]; simp
          · have : c = z := by simpa [hA] using hz
            subst this
            rw [h4o c hcx, h3c]
        · refine (g3.zero.congr (fun k hk => ?_) (fun _ _ => rfl)).root
          have hkx : k ≠ x := by rintro rfl; exact hxA hk
          rw [SameVal, h4o k hkx]
          by_cases hkc : k = c
          · subst hkc; rw [h3c]; simp
          · rw [h3o k hkx hkc]; simp
      · have Lv := I1.loc v hv1
        have hd : ∀ u ∈ (tr1 v).io, u ≠ x ∧ u ∉ A.io := by
          intro u hu
          have : u ∉ (tr1 x).io := by
            intro hm
            have := I1.disj hv1 (v := x) (by omega) hu hm
            have hvm : v ∈ (node A x nil).io := by rw [← e4, ← this]; exact Lv.mem
            rw [io_node, List.mem_append, List.mem_cons] at hvm
            simp at hvm
            tauto
          rw [e4, io_node, List.mem_append, List.mem_cons] at this
          tauto
        refine Lv.congr rfl (fun u hu => t3 u (hd u hu).1 (hd u hu).2) (fun u hu => ?_)
          (fun u hu => Function.update_of_ne (hd u hu).1 _ _) (fun _ _ => rfl)
        rw [h4o u (hd u hu).1, h3o u (hd u hu).1]
        rintro rfl; exact (hd u hu).2 hcA
    · have hv1 : v < h1.size := hv
      show u < h1.size
      by_cases hvx : v = x
      · subst hvx; simp at hvu
      · rw [Function.update_of_ne hvx] at hvu
        exact I1.range v u hvu hv1

/-- `if (not is_root()) access();` -/
theorem Inv.rootOrAccess {h : Heap K} {par w tr} (I : Inv E h par w tr) {x fuel} (hx : x < h.size)
    (hf : h.size + 1 ≤ fuel) : ∃ r h' tr' a b, isRoot h x = .ok r ∧
      ((r = true ∧ h' = h) ∨ (r = false ∧ LCT.access fuel h x = .ok h' ∧
        LCT.access fuel (E.h h) x = .ok (E.h h'))) ∧ h'.size = h.size ∧
      Inv E h' par w tr' ∧ tr' x = node a x b := by
  have L := I.loc x hx
  obtain ⟨a, b, c, hc⟩ := exists_focus (tr x) x L.mem
  have hr := isRoot_ctx (hc ▸ L.shape) (hc ▸ I.rootOK hx)
  refine ⟨c.isEmpty, ?_⟩
  cases c with
  | nil => exact ⟨h, tr, a, b, hr, by simp, rfl, I, hc.symm⟩
  | cons fr c =>
    obtain ⟨h1, tr1, A, e1, e2, I1, e4, -, -, -, e10⟩ := I.access hx hf
    exact ⟨h1, tr1, A, nil, hr, .inr ⟨rfl, e1, e10⟩, e2, I1, e4⟩

/-- `cut` at a root runs into its assertion. -/
theorem RepE.cutAtRoot {h : Heap K} {par w} (hR : RepE E h par w) {x fuel} (hx : x < h.size)
    (hp : par x = none) (hf : h.size + 1 ≤ fuel) : LCT.cut fuel h x = .error .assertFail := by
  obtain ⟨tr, I⟩ := hR
  obtain ⟨h1, tr1, A, e1, e2, I1, e4, e6, e7, e8, e10⟩ := I.access hx hf
  have L := I1.loc x (by omega)
  have hch := L.chain
  have hsh := L.shape
  rw [e4] at hch hsh
  have ha : A = nil := by
    rw [← io_eq_nil]
    by_contra hne
    rw [io_node, List.isChain_append] at hch
    obtain ⟨z, hz⟩ : ∃ z, A.io.getLast? = some z := by
      cases hh : A.io.getLast? with
      | none => exact absurd (List.getLast?_eq_none_iff.1 hh) hne
      | some z => exact ⟨z, rfl⟩
    have := hch.2.2 z hz x (by simp)
    rw [hp] at this; simp at this
  subst ha
  have hc : (h1.get x).ch0 = none := hsh.2.2.1
  simp only [LCT.cut, e1, ok_bind, Vec.rd_ok (show x < h1.size by omega), hc]

/-- `set_fa` at a root passes its assertion. -/
theorem RepE.setFa_ok {h : Heap K} {par w} (hR : RepE E h par w) {x f fuel} (hx : x < h.size)
    (hp : par x = none) (hf : h.size + 1 ≤ fuel) : ∃ h', LCT.setFa fuel h x f = .ok h' := by
  obtain ⟨tr, I⟩ := hR
  obtain ⟨h1, tr1, a, b, e1, e2, I1, e4, e5, e6, e7, e8, e9, e10⟩ := I.splay (fuel := fuel) hx (by omega)
  have L := I1.loc x (by omega)
  have hch := L.chain
  have hsh := L.shape
  rw [e4] at hch hsh
  have ha : a = nil := by
    rw [← io_eq_nil]
    by_contra hne
    rw [io_node, List.isChain_append] at hch
    obtain ⟨z, hz⟩ : ∃ z, a.io.getLast? = some z := by
      cases hh : a.io.getLast? with
      | none => exact absurd (List.getLast?_eq_none_iff.1 hh) hne
      | some z => exact ⟨z, rfl⟩
    have := hch.2.2 z hz x (by simp)
    rw [hp] at this; simp at this
  subst ha
  have hfa : (h1.get x).fa = none := by rw [hsh.2.1]; simpa using hp
  refine ⟨h1.set x { h1.get x with fa := some f }, ?_⟩
  simp only [LCT.setFa, e1, ok_bind, Vec.rd_ok (show x < h1.size by omega), hfa, if_true]
  rw [Vec.wr_ok _ (by omega)]

theorem RepE.getVal {h : Heap K} {par w} (hR : RepE E h par w) {x fuel} (hx : x < h.size)
    (hf : h.size + 1 ≤ fuel) : ∃ h', getVal fuel h x = .ok (w x, h') ∧ h'.size = h.size ∧ RepE E h' par w ∧
      LCT.getVal fuel (E.h h) x = .ok (E.e (w x), E.h h') := by
  obtain ⟨tr, I⟩ := hR
  obtain ⟨r, h', tr', a, b, e1, e2, e3, I', e4⟩ := I.rootOrAccess hx hf
  have L := (I'.loc x (by omega)).good
  rw [e4] at L
  have hx' : x < h'.size := by omega
  refine ⟨h', ?_, e3, ⟨tr', I'⟩, ?_⟩
  · unfold LCT.getVal
    rw [e1, ok_bind]
    rcases e2 with ⟨rfl, rfl⟩ | ⟨rfl, e2, -⟩
    · simp [Vec.rd_ok hx', L.1.1]
    · simp [Vec.rd_ok hx', L.1.1, e2]
  · unfold LCT.getVal
    rw [isRoot_sim, e1, ok_bind]
    rcases e2 with ⟨rfl, rfl⟩ | ⟨rfl, -, e2⟩
    · simp [rd_sim, Vec.rd_ok hx', L.1.1]
    · simp [rd_sim, Vec.rd_ok hx', L.1.1, e2]

theorem RepE.setVal {h : Heap K} {par w} (hR : RepE E h par w) {x fuel} (v : K) (hv : E.I v) (hx : x < h.size)
    (hf : h.size + 1 ≤ fuel) : ∃ h', setVal fuel h x v = .ok h' ∧ h'.size = h.size ∧
      RepE E h' par (Function.update w x v) ∧ LCT.setVal fuel (E.h h) x (E.e v) = .ok (E.h h') := by
  obtain ⟨tr, I⟩ := hR
  obtain ⟨r, h1, tr1, a, b, e1, e2, e3, I1, e4⟩ := I.rootOrAccess hx hf
  have L := I1.loc x (by omega)
  have hsh := L.shape
  have hg := L.good
  have hnd := L.nodup
  rw [e4] at hsh hg hnd
  set h2 := h1.set x { h1.get x with val := v } with h2def
  have h2o : ∀ k, k ≠ x → h2.get k = h1.get k := fun k hk => Vec.set_get_ne _ _ hk
  have hs2 : Shape h2 (node a x b) ((node a x b).io.head?.bind par) := hsh.congr rfl fun k _ => by
    by_cases hk : k = x
    · subst hk; simp [SamePtr, h2def]
    · simp [SamePtr, h2o k hk]
  have h4o : ∀ k, k ≠ x → (pushUpH h2 x).get k = h1.get k := fun k hk => by
    rw [pushUpH_ne _ hk, h2o k hk]
  have hu := pushUp_shape hs2
  refine ⟨pushUpH h2 x, ?_, e3, ⟨tr1, fun u hu => ?_, fun p q hpq hp => I1.range p q hpq hp, I1.acyc⟩, ?_⟩
  rotate_right
  · have hx' : x < h1.size := by omega
    have hw2 : (E.h h1).wr x { E.n (h1.get x) with val := E.e v } = .ok (E.h h2) :=
      wr_emb E hx' _ rfl
    unfold LCT.setVal
    rw [isRoot_sim, e1, ok_bind]
    have hu' := sim_map (pushUp_sim E (h := h2) (x := x) (by simpa [h2def] using hv) (fun c hc => ?_) fun c hc => ?_) hu
    rotate_left
    · rw [hs2.2.2.1] at hc
      cases a with
      | nil => simp at hc
      | node l1 y l2 =>
        cases hc
        have hcx : c ≠ x := fun e => by subst e; simp [List.nodup_append] at hnd
        rw [h2o c hcx]
        obtain ⟨-, ⟨m, -, -, -, m4⟩, -⟩ := hg.2.1
        exact m4.head
    · rw [hs2.2.2.2.1] at hc
      cases b with
      | nil => simp at hc
      | node l1 y l2 =>
        cases hc
        have hcx : c ≠ x := fun e => by subst e; simp [List.nodup_append] at hnd
        rw [h2o c hcx]
        obtain ⟨-, ⟨m, -, -, -, m4⟩, -⟩ := hg.2.2
        exact m4.head
    rcases e2 with ⟨rfl, rfl⟩ | ⟨rfl, -, e2⟩
    · simp only [Bool.not_true, Bool.false_eq_true, if_false, ok_bind, rd_sim, Vec.rd_ok hx', map_ok]
      exact (congrArg (· >>= fun h => pushUp h x) hw2).trans hu'
    · simp only [Bool.not_false, if_true, e2, ok_bind, rd_sim, Vec.rd_ok hx', map_ok]
      exact (congrArg (· >>= fun h => pushUp h x) hw2).trans hu'
  · have hx' : x < h1.size := by omega
    unfold LCT.setVal
    rw [e1, ok_bind]
    rcases e2 with ⟨rfl, rfl⟩ | ⟨rfl, e2, -⟩
    · simp [Vec.rd_ok hx', Vec.wr_ok _ hx', ← h2def, hu]
    · simp [Vec.rd_ok hx', Vec.wr_ok _ hx', e2, ← h2def, hu]
  · have hu1 : u < h1.size := hu
    have Lu := I1.loc u hu1
    by_cases hm : u ∈ (node a x b).io
    · have et : tr1 u = node a x b := by rw [← e4]; exact L.same u (by rw [e4]; exact hm)
      refine ⟨Lu.mem, Lu.same, Lu.nodup, Lu.chain, ?_, ?_⟩
      · rw [et]; exact hs2.congr rfl fun k _ => pushUpH_ptr _ _ _
      · rw [et]
        obtain ⟨g1, g2, g3⟩ := hg
        simp only [io_node, List.nodup_append, List.nodup_cons, List.mem_cons] at hnd
        obtain ⟨hn1, ⟨hn2, hn3⟩, hn4⟩ := hnd
        refine ⟨⟨?_, by simpa using hv, ?_⟩, ?_, ?_⟩
        · rw [(pushUpH_val _ _ _).1]; simp [h2def]
        · rw [(pushUpH_val _ _ _).2]; simpa [h2def] using g1.2.2
        · rw [(pushUpH_val _ _ _).2]
          have : (h2.get x).add = (h1.get x).add := by simp [h2def]
          rw [this]
          have hk' : ∀ k ∈ a.io, k ≠ x := fun k hk e => hn4 k hk x (.inl rfl) e
          exact g2.congr (fun k hk => by rw [SameVal, h4o k (hk' k hk)]; simp)
            (fun k hk => Function.update_of_ne (hk' k hk) _ _)
        · rw [(pushUpH_val _ _ _).2]
          have : (h2.get x).add = (h1.get x).add := by simp [h2def]
          rw [this]
          have hk' : ∀ k ∈ b.io, k ≠ x := by rintro k hk rfl; exact hn2 hk
          exact g3.congr (fun k hk => by rw [SameVal, h4o k (hk' k hk)]; simp)
            (fun k hk => Function.update_of_ne (hk' k hk) _ _)
    · have hd : ∀ k ∈ (tr1 u).io, k ≠ x := by
        rintro k hk rfl
        have := Lu.same k hk
        rw [e4] at this
        exact hm (by rw [this]; exact Lu.mem)
      exact Lu.congr rfl (fun _ _ => rfl) (fun k hk => h4o k (hd k hk)) (fun _ _ => rfl)
        (fun k hk => Function.update_of_ne (hd k hk) _ _)

open Classical in
theorem RepE.addVal {h : Heap K} {par w} (hR : RepE E h par w) {x fuel} (d : K) (hx : x < h.size)
    (hI : ∀ v, OnPath par x v → E.I (w v + d)) (hf : h.size + 1 ≤ fuel) : ∃ h', addValWayToRoot fuel h x d = .ok h' ∧ h'.size = h.size ∧
      RepE E h' par (fun v => if OnPath par x v then w v + d else w v) ∧
      LCT.addValWayToRoot fuel (E.h h) x (E.e d) = .ok (E.h h') := by
  obtain ⟨tr, I⟩ := hR
  obtain ⟨h1, tr1, A, e1, e2, I1, e4, e6, e7, e8, e10⟩ := I.access hx hf
  have L := I1.loc x (by omega)
  have hch := L.chain
  have hsh := L.shape
  have hnd := L.nodup
  rw [e4] at hch hsh hnd
  have hpath := chain_up hch e8
  set w' := fun v => if OnPath par x v then w v + d else w v with hw'
  have hwin : ∀ k ∈ (node A x nil).io, w' k = w k + d := by
    intro k hk
    simp only [hw', (hpath k).1 hk, if_true]
  have hwout : ∀ k, k ∉ (node A x nil).io → w' k = w k := by
    intro k hk
    have : ¬ OnPath par x k := fun h => hk ((hpath k).2 h)
    simp only [hw', this, if_false]
  have hxA : x ∉ A.io := by
    intro hm
    exact (List.nodup_append.1 hnd).2.2 x hm x (by simp) rfl
  set h2 := h1.set x (addN (h1.get x) d) with h2def
  have h2o : ∀ k, k ≠ x → h2.get k = h1.get k := fun k hk => Vec.set_get_ne _ _ hk
  have hIx : ∀ k ∈ (node A x nil).io, E.I (w' k) := by
    intro k hk
    rw [hwin k hk]; exact hI k ((hpath k).1 hk)
  have hval := e6.1
  rw [List.sum_nil, add_zero] at hval
  have hg6 : Good E h1 w' (node A x nil) [d] := e6.shift d hwin hIx (by simp) fun v hv hv' =>
    ⟨hv.head, by simpa [Adm] using hv'⟩
  refine ⟨h2, ?_, e2, ⟨tr1, fun u hu => ?_, fun p q hpq hp => I1.range p q hpq hp, I1.acyc⟩, ?_⟩
  rotate_right
  · unfold LCT.addValWayToRoot
    rw [e10, ok_bind, updateAdd_sim hg6.addOK, updateAdd_ok _ (by omega), map_ok]
  · unfold LCT.addValWayToRoot
    rw [e1, ok_bind, updateAdd_ok _ (by omega)]
  · have hu1 : u < h1.size := hu
    have Lu := I1.loc u hu1
    by_cases hm : u ∈ (node A x nil).io
    · have et : tr1 u = node A x nil := by rw [← e4]; exact L.same u (by rw [e4]; exact hm)
      refine ⟨Lu.mem, Lu.same, Lu.nodup, Lu.chain, ?_, ?_⟩
      · rw [et]
        exact hsh.congr rfl fun k _ => by
          by_cases hk : k = x
          · subst hk; simp [SamePtr, h2def, addN]
          · simp [SamePtr, h2o k hk]
      · rw [et]
        refine Good.root (hg6.updateAdd d (by simpa using hnd) (fun k hk => ?_) (fun k hk hk' => ?_))
        · have : x = k := by simpa using hk
          subst this; simp [h2def, addN]
        · rw [SameVal, h2o k (by rintro rfl; simp at hk')]; simp
    · have hd : ∀ k ∈ (tr1 u).io, k ∉ (node A x nil).io := by
        intro k hk hk'
        have h1 := Lu.same k hk
        have h2 := L.same k (by rw [e4]; exact hk')
        rw [e4] at h2
        exact hm (by rw [← h2, h1]; exact Lu.mem)
      exact Lu.congr rfl (fun _ _ => rfl) (fun k hk => h2o k (by rintro rfl; exact hd k hk (by simp)))
        (fun _ _ => rfl) (fun k hk => hwout k (hd k hk))

theorem getMinLoop_spec {w : Nat → K} : ∀ {t f x fuel} {h : Heap K} {L m0}, Shape h t f → t.io.Nodup →
    t.rt = some x → Good E h w t [] → t.io.length ≤ fuel → fmin w L = some m0 → (∀ k ∈ L, E.I (w k)) →
    ∃ h' m, getMinLoop fuel h x (w m0, some m0) = .ok ((w m, some m), h') ∧
      getMinLoop fuel (E.h h) x (E.e (w m0), some m0) = .ok ((E.e (w m), some m), E.h h') ∧ h'.size = h.size ∧
      (∀ k, SamePtr h h' k) ∧ (∀ k, k ∉ t.io → h'.get k = h.get k) ∧ Good E h' w t [] ∧
      fmin w (t.io.tail ++ L) = some m := by
  intro t
  induction t with
  | nil => intro f x fuel h L m0 _ _ hx; simp at hx
  | node l y r ihl ihr =>
    intro f x fuel h L m0 hs hn hx hg hf hR hLI
    have hbnd := hg.bnd
    have : y = x := by simpa using hx
    subst this
    have hf' := hf
    simp only [io_node, List.length_append, List.length_cons] at hf
    obtain ⟨fuel, rfl⟩ : ∃ k, fuel = k + 1 := ⟨fuel - 1, by omega⟩
    obtain ⟨⟨g1, gI, gt⟩, ⟨m, m1, m2, m3, m4⟩, g3, g4⟩ := hg
    obtain ⟨h1, e1, e2, e3, e4, e5, e6, e7, e8, e9, e10, e11⟩ := pushDown_spec hs hn
      ⟨_, gt, by rw [sub_add_cancel]; exact gI⟩ g3 g4
    have hs1 : Shape h1 (node l y r) f := hs.congr e2 fun k _ => e3 k
    obtain ⟨s1, s2, s3, s4, s5, s6⟩ := hs1
    have hn' := hn
    simp only [io_node, List.nodup_append, List.nodup_cons, List.mem_cons] at hn'
    obtain ⟨hn1, ⟨hn2, hn3⟩, hn4⟩ := hn'
    have nlr : ∀ k ∈ r.io, k ∉ l.io := fun k hk hk' => hn4 k hk' k (.inr hk) rfl
    have nlx : y ∉ l.io := fun hk => hn4 y hk y (.inl rfl) rfl
    have hwy : w y = (h1.get y).val := by rw [e5, g1, List.sum_nil, add_zero]
    -- the minimum after looking at the right child
    obtain ⟨mr, hmr, hret, hretE⟩ : ∃ mr, fmin w (r.io ++ L) = some mr ∧
        (match (h1.get y).ch1 with
          | none => (.ok (w m0, some m0) : Res (K × Option Nat))
          | some c => do
            let nc ← h1.rd c
            .ok (if nc.minV ≤ (w m0, some m0).1 then (nc.minV, nc.minP) else (w m0, some m0))) =
          .ok (w mr, some mr) ∧
        (match (h1.get y).ch1 with
          | none => (.ok (E.e (w m0), some m0) : Res (R × Option Nat))
          | some c => do
            let nc ← (E.h h1).rd c
            .ok (if nc.minV ≤ (E.e (w m0), some m0).1 then (nc.minV, nc.minP) else (E.e (w m0), some m0))) =
          .ok (E.e (w mr), some mr) := by
      rw [s4]
      cases r with
      | nil => exact ⟨m0, by simpa using hR, by simp, by simp⟩
      | node r1 c r2 =>
        obtain ⟨-, ⟨mc, c1, c2, c3, -⟩, -⟩ := e10
        simp only [List.sum_nil, add_zero] at c3
        have hIc : E.I (w mc) := hbnd mc (by
          have := fmin_mem c1
          simp only [List.mem_append, List.mem_cons, io_node] at this ⊢
          exact .inr (.inr this))
        have hle := E.le _ _ hIc (hLI m0 (fmin_mem hR))
        rw [← c3] at hle
        simp only [rt_node, rd_sim, Vec.rd_ok (s6.1), ok_bind, map_ok, emb_minV, emb_minP, hle]
        rw [fmin_append, io_node, c1, hR, c2, c3]
        simp only [cmb]
        by_cases hc : w mc ≤ w m0
        · exact ⟨mc, by simp [hc], by simp [hc], by simp [hc]⟩
        · exact ⟨m0, by simp [hc], by simp [hc], by simp [hc]⟩
    have hgoodl : ∀ h' : Heap K, (∀ k, k ∉ l.io → h'.get k = h1.get k) → Good E h' w l [] →
        Good E h' w (node l y r) [] := by
      intro h' ho hgl
      have hy : h'.get y = h1.get y := ho y nlx
      refine ⟨⟨by rw [hy, e5, g1], by rw [hy, e5]; exact gI, by rw [hy, e5, e8, sub_zero]; exact gI⟩,
        ⟨m, m1, by rw [hy, e7, m2], by rw [hy, e6, m3], by rw [hy, e6]; exact m4⟩, ?_, ?_⟩
      · rw [hy, e8]; exact hgl.zero'
      · rw [hy, e8]
        exact e10.zero'.congr (fun k hk => by rw [SameVal, ho k (nlr k hk)]; simp) (fun _ _ => rfl)
    unfold getMinLoop
    rw [e1, e11, ok_bind, ok_bind, rd_sim, Vec.rd_ok s1, map_ok, ok_bind, ok_bind]
    cases l with
    | nil =>
      refine ⟨h1, mr, ?_, ?_, e2, e3, e4, hgoodl h1 (fun _ _ => rfl) e9, by simpa using hmr⟩
      have hch0 : (h1.get y).ch0 = none := s3
      cases hc : (h1.get y).ch1 with
      | none =>
        rw [hc] at hret
        simp only [Except.ok.injEq] at hret
        simp only [hch0, hret, ok_bind]
      | some c =>
        rw [hc] at hret
        have hcs : c < h1.size := s6.lt (rt_mem (s4 ▸ hc))
        simp only [Vec.rd_ok hcs, ok_bind, Except.ok.injEq, hch0] at hret ⊢
        rw [hret]
      have hch0 : (h1.get y).ch0 = none := s3
      cases hc : (h1.get y).ch1 with
      | none =>
        rw [hc] at hretE
        simp only [Except.ok.injEq] at hretE
        simp only [emb_ch0, emb_ch1, hc, hch0, hretE, ok_bind]
      | some c =>
        rw [hc] at hretE
        have hcs : c < h1.size := s6.lt (rt_mem (s4 ▸ hc))
        simp only [emb_ch0, emb_ch1, hc, rd_sim, map_ok, Vec.rd_ok hcs, ok_bind, Except.ok.injEq, hch0] at hretE ⊢
        rw [hretE]
    | node l1 c l2 =>
      have hch0 : (h1.get y).ch0 = some c := s3
      obtain ⟨my, hmy, hmy', hmyE⟩ : ∃ my, fmin w (y :: (r.io ++ L)) = some my ∧
          (if (h1.get y).val ≤ (w mr, some mr).1 then ((h1.get y).val, some y) else (w mr, some mr)) =
            (w my, some my) ∧
          (if E.e (h1.get y).val ≤ (E.e (w mr), some mr).1 then (E.e (h1.get y).val, some y) else
            (E.e (w mr), some mr)) = (E.e (w my), some my) := by
        have hmrI : E.I (w mr) := by
          rcases List.mem_append.1 (fmin_mem hmr) with h | h
          · exact hbnd mr (by simp [h])
          · exact hLI mr h
        rw [fmin_cons, hmr]
        simp only [cmb, ← hwy, E.le _ _ (hbnd y (by simp)) hmrI]
        by_cases hc : w y ≤ w mr
        · exact ⟨y, by simp [hc], by simp [hc], by simp [hc]⟩
        · exact ⟨mr, by simp [hc], by simp [hc], by simp [hc]⟩
      obtain ⟨h2, m2', k1, kE, k2, k3, k4, k5, k6⟩ := ihl (x := c) (fuel := fuel) s5 hn1 rfl e9
        (by simp only [io_node, List.length_append, List.length_cons] at hf ⊢; omega) hmy
        (fun k hk => by
          rcases List.mem_cons.1 hk with rfl | hk
          · exact hbnd k (by simp)
          rcases List.mem_append.1 hk with hk | hk
          · exact hbnd k (by simp [hk])
          · exact hLI k hk)
      refine ⟨h2, m2', ?_, ?_, by omega, fun k => ?_, fun k hk => ?_, hgoodl h2 k4 k5, ?_⟩
      · cases hc : (h1.get y).ch1 with
        | none =>
          rw [hc] at hret
          simp only [Except.ok.injEq] at hret
          simp only [hch0, hret, ok_bind, hmy', k1]
        | some c =>
          rw [hc] at hret
          have hcs : c < h1.size := s6.lt (rt_mem (s4 ▸ hc))
          simp only [Vec.rd_ok hcs, ok_bind, Except.ok.injEq, hch0] at hret ⊢
          rw [hret, hmy', k1]
      · cases hc : (h1.get y).ch1 with
        | none =>
          rw [hc] at hretE
          simp only [Except.ok.injEq] at hretE
          simp only [emb_ch0, emb_ch1, emb_val, hc, hch0, hretE, ok_bind]
          exact (congrArg (getMinLoop fuel (E.h h1) _) hmyE).trans kE
        | some c =>
          rw [hc] at hretE
          have hcs : c < h1.size := s6.lt (rt_mem (s4 ▸ hc))
          simp only [emb_ch0, emb_ch1, emb_val, hc, rd_sim, map_ok, Vec.rd_ok hcs, ok_bind, Except.ok.injEq,
            hch0] at hretE ⊢
          rw [hretE]
          exact (congrArg (getMinLoop fuel (E.h h1) _) hmyE).trans kE
      · have a1 := e3 k; have a2 := k3 k
        exact ⟨a2.1.trans a1.1, a2.2.1.trans a1.2.1, a2.2.2.trans a1.2.2⟩
      · rw [k4 k (fun hm => hk (by rw [io_node]; exact List.mem_append_left _ hm)), e4 k hk]
      · rw [← k6, io_node]
        congr 1
        cases hl : (node l1 c l2).io with
        | nil => simp at hl
        | cons z zs => simp

theorem fmin_shallow {w : Nat → K} {par : Nat → Option Nat} : ∀ {l m}, fmin w l = some m →
    l.IsChain (fun a b => par b = some a) → ∀ v ∈ l, w v = w m → OnPath par v m := by
  intro l
  induction l with
  | nil => intro m _ _ v hv; simp at hv
  | cons x xs ih =>
    intro m hm hc v hv hwv
    have hc' : xs.IsChain (fun a b => par b = some a) := by
      rw [List.isChain_cons] at hc; exact hc.2
    rw [fmin_cons] at hm
    cases hh : fmin w xs with
    | none =>
      rw [hh] at hm; simp only [cmb, Option.some.injEq] at hm
      exact hm ▸ chain_reach hc v hv
    | some y =>
      rw [hh] at hm; simp only [cmb] at hm
      split at hm
      · next h1 =>
        have : x = m := by simpa using hm
        exact this ▸ chain_reach hc v hv
      · next h1 =>
        have : y = m := by simpa using hm
        subst this
        rw [List.mem_cons] at hv
        rcases hv with rfl | hv
        · exact absurd hwv.le h1
        · exact ih hh hc' v hv hwv

theorem RepE.getMin {h : Heap K} {par w} (hR : RepE E h par w) {x fuel} (hx : x < h.size)
    (hp : par x ≠ none) (hf : h.size + 1 ≤ fuel) : ∃ h' m, getMin fuel h x = .ok ((w m, some m), h') ∧
      h'.size = h.size ∧ RepE E h' par w ∧ m < h.size ∧ OnPath par x m ∧ par m ≠ none ∧
      (∀ v, OnPath par x v → par v ≠ none → w m ≤ w v) ∧
      (∀ v, OnPath par x v → par v ≠ none → w v = w m → OnPath par v m) ∧
      LCT.getMin fuel (E.h h) x = .ok ((E.e (w m), some m), E.h h') := by
  obtain ⟨tr, I⟩ := hR
  obtain ⟨h1, tr1, A, e1, e2, I1, e4, e6, e7, e8, e10⟩ := I.access hx hf
  have L := I1.loc x (by omega)
  have hch := L.chain
  have hsh := L.shape
  have hnd := L.nodup
  have hlen := I1.length_le (v := x) (by omega)
  rw [e4] at hch hsh hnd hlen
  have hpath : ∀ v, v ∈ (node A x nil).io ↔ OnPath par x v := chain_up hch e8
  obtain ⟨h2, k1, k2, k3, k4, k5, k6, k7, k8, k9, k10, k11⟩ := pushDown_spec hsh hnd
    ⟨w x, e6.bnd x (by simp), by rw [e7, add_zero]; exact e6.bnd x (by simp)⟩ (ts := []) e6.2.2.1 e6.2.2.2
  have hpd := k1
  have hs2 := hsh.congr k2 fun k _ => k3 k
  cases A with
  | nil => exact absurd (by simpa using e8) hp
  | node l c r =>
    obtain ⟨s1, s2, s3, s4, s5, s6⟩ := hs2
    set A := node l c r with hA
    have hndA : A.io.Nodup := (List.nodup_append.1 hnd).1
    have hxA : x ∉ A.io := fun hm => (List.nodup_append.1 hnd).2.2 x hm x (by simp) rfl
    obtain ⟨fuel, rfl⟩ : ∃ k, fuel = k + 1 := ⟨fuel - 1, by omega⟩
    have hwx : w x = (h1.get x).val := by have := e6.1.1; rwa [List.sum_nil, add_zero] at this
    obtain ⟨h3, m, j1, jE, j2, j3, j4, j5, j6⟩ := getMinLoop_spec (t := A) (x := c) (fuel := fuel) (L := [x]) (m0 := x)
      s5 hndA rfl k9 (by simp only [io_node, List.length_append, List.length_cons] at hlen ⊢; omega) (by simp [fmin])
      (fun k hk => by rw [List.mem_singleton.1 hk]; exact e6.bnd x (by simp))
    obtain ⟨z, zs, hz⟩ : ∃ z zs, A.io = z :: zs := by
      cases hl : A.io with
      | nil => simp [hA] at hl
      | cons z zs => exact ⟨z, zs, rfl⟩
    rw [hz, List.tail_cons] at j6
    have hio : (node A x nil).io = z :: (zs ++ [x]) := by simp [io_node, hz]
    have hzn : par z = none := by rw [hio] at e8; simpa using e8
    rw [hio] at hch hnd
    have hnz : ∀ v, OnPath par x v → (par v ≠ none ↔ v ∈ zs ++ [x]) := by
      intro v hv
      have hv' := (hpath v).2 hv
      rw [hio, List.mem_cons] at hv'
      constructor
      · intro hpv
        rcases hv' with rfl | hv'
        · exact absurd hzn hpv
        · exact hv'
      · intro hm
        rw [List.isChain_iff_getElem] at hch
        obtain ⟨i, hi, rfl⟩ := List.getElem_of_mem hm
        have := hch i (by simpa using hi)
        simp only [List.getElem_cons_succ] at this
        rw [this]; simp
    have hmm : m ∈ zs ++ [x] := fmin_mem j6
    have hmp : OnPath par x m := (hpath m).1 (by rw [hio]; exact List.mem_cons_of_mem _ hmm)
    have hc2 : (zs ++ [x]).IsChain (fun a b => par b = some a) := (List.isChain_cons.1 hch).2
    -- the forest is still represented
    have h3o : ∀ k, k ∉ (node A x nil).io → h3.get k = h1.get k := fun k hk => by
      rw [j4 k (fun hm => hk (by rw [io_node]; exact List.mem_append_left _ hm)), k4 k hk]
    have h3x : h3.get x = h2.get x := j4 x hxA
    refine ⟨h3, m, ?_, by omega, ⟨tr1, fun v hv => ?_, fun p q hpq hp => ?_, I1.acyc⟩, ?_, hmp, (hnz m hmp).2 hmm,
      fun v hv hv' => fmin_le j6 v ((hnz v hv).1 hv'),
      fun v hv hv' hvm => fmin_shallow j6 hc2 v ((hnz v hv).1 hv') hvm, ?_⟩
    rotate_right
    · unfold LCT.getMin
      have hch0 : (h2.get x).ch0 = some c := s3
      have hch1 : (h2.get x).ch1 = none := s4
      rw [e10, ok_bind, rd_sim, Vec.rd_ok (by omega), map_ok, ok_bind]
      simp only [getMinLoop, k11, ok_bind, rd_sim, Vec.rd_ok s1, map_ok, emb_ch0, emb_ch1, emb_val, hch0, hch1, k5,
        E.le _ _ (hwx ▸ e6.bnd x (by simp)) (hwx ▸ e6.bnd x (by simp)), le_refl, if_true]
      rw [← hwx, jE]
    · unfold LCT.getMin
      have hch0 : (h2.get x).ch0 = some c := s3
      have hch1 : (h2.get x).ch1 = none := s4
      rw [e1, ok_bind, Vec.rd_ok (by omega), ok_bind]
      simp only [getMinLoop, k1, ok_bind, Vec.rd_ok s1, hch0, hch1, k5, le_refl, if_true]
      rw [← hwx, j1]
    · have hv1 : v < h1.size := by omega
      have Lv := I1.loc v hv1
      by_cases hm : v ∈ (node A x nil).io
      · have et : tr1 v = node A x nil := by rw [← e4]; exact L.same v (by rw [e4]; exact hm)
        refine ⟨Lv.mem, Lv.same, Lv.nodup, Lv.chain, ?_, ?_⟩
        · exact Lv.shape.congr (by omega) fun k _ => by
            have a1 := k3 k; have a2 := j3 k
            exact ⟨a2.1.trans a1.1, a2.2.1.trans a1.2.1, a2.2.2.trans a1.2.2⟩
        · rw [et]
          refine ⟨⟨by rw [h3x, k5, hwx], e6.bnd x (by simp), w x, e6.bnd x (by simp), by
            rw [h3x, k8, add_zero]; exact e6.bnd x (by simp)⟩, ?_, trivial⟩
          rw [h3x, k8]; exact j5.zero'
      · have hd : ∀ k ∈ (tr1 v).io, k ∉ (node A x nil).io := by
          intro k hk hk'
          have h1 := Lv.same k hk
          have h2 := L.same k (by rw [e4]; exact hk')
          rw [e4] at h2
          exact hm (by rw [← h2, h1]; exact Lv.mem)
        exact Lv.congr (by omega) (fun _ _ => rfl) (fun k hk => h3o k (hd k hk))
          (fun _ _ => rfl) (fun _ _ => rfl)
    · have := I1.range p q hpq (by omega); omega
    · have := L.shape.lt (k := m) (by rw [e4, hio]; exact List.mem_cons_of_mem _ hmm); omega

/-- At a root, `get_min_wtrbnr` returns the root itself. -/
theorem RepE.getMinAtRoot {h : Heap K} {par w} (hR : RepE E h par w) {x fuel} (hx : x < h.size)
    (hp : par x = none) (hf : h.size + 1 ≤ fuel) : ∃ h', LCT.getMin fuel h x = .ok ((w x, some x), h') ∧
      h'.size = h.size ∧ RepE E h' par w ∧ LCT.getMin fuel (E.h h) x = .ok ((E.e (w x), some x), E.h h') := by
  obtain ⟨tr, I⟩ := hR
  obtain ⟨h1, tr1, A, e1, e2, I1, e4, e6, e7, e8, e10⟩ := I.access hx hf
  have L := I1.loc x (by omega)
  have hch := L.chain
  have hsh := L.shape
  have hnd := L.nodup
  rw [e4] at hch hsh hnd
  have hA : A = nil := by
    rw [← io_eq_nil]
    by_contra hne
    rw [io_node, List.isChain_append] at hch
    obtain ⟨z, hz⟩ : ∃ z, A.io.getLast? = some z := by
      cases hh : A.io.getLast? with
      | none => exact absurd (List.getLast?_eq_none_iff.1 hh) hne
      | some z => exact ⟨z, rfl⟩
    have := hch.2.2 z hz x (by simp)
    rw [hp] at this; simp at this
  subst hA
  obtain ⟨s1, s2, s3, s4, s5, s6⟩ := hsh
  have hpd : pushDown h1 x = .ok h1 := by simp [pushDown, Vec.rd_ok s1, e7]
  obtain ⟨fuel, rfl⟩ : ∃ k, fuel = k + 1 := ⟨fuel - 1, by omega⟩
  have hwx : w x = (h1.get x).val := by have := e6.1.1; rwa [List.sum_nil, add_zero] at this
  have hch0 : (h1.get x).ch0 = none := s3
  have hch1 : (h1.get x).ch1 = none := s4
  have hpdE : pushDown (E.h h1) x = .ok (E.h h1) := by
    have hb := E.beq (w x) 0 (e6.bnd x (by simp)) (by rw [add_zero]; exact e6.bnd x (by simp))
    simp [pushDown, rd_sim, Vec.rd_ok s1, e7, hb]
  refine ⟨h1, ?_, e2, ⟨tr1, I1⟩, ?_⟩
  rotate_right
  · unfold LCT.getMin
    rw [e10, ok_bind, rd_sim, Vec.rd_ok (by omega), map_ok, ok_bind]
    simp only [getMinLoop, hpdE, ok_bind, rd_sim, Vec.rd_ok s1, map_ok, emb_ch0, emb_ch1, emb_val, hch0, hch1, hwx]
  unfold LCT.getMin
  rw [e1, ok_bind, Vec.rd_ok (by omega), ok_bind]
  simp only [getMinLoop, hpd, ok_bind, Vec.rd_ok s1, hch0, hch1, hwx]

theorem RepE.lt {h : Heap K} {par w} (hR : RepE E h par w) {x y} (hx : x < h.size) (hp : OnPath par x y) :
    y < h.size := by
  obtain ⟨tr, I⟩ := hR
  induction hp with
  | refl => exact hx
  | tail _ hbc ih => exact I.range _ _ hbc ih

/-! ### Exact arithmetic -/

theorem rep_init (n : Nat) : Rep (Vec.replicate n (initNode : LNode K)) (fun _ => none) (fun _ => 0) :=
  repE_init (E := Emb.id K) trivial n

theorem Rep.findRoot {h : Heap K} {par w} (hR : Rep h par w) {x fuel} (hx : x < h.size)
    (hf : h.size + 1 ≤ fuel) : ∃ r h', findRoot fuel h x = .ok (r, h') ∧ h'.size = h.size ∧ Rep h' par w ∧
      r < h.size ∧ OnPath par x r ∧ par r = none := by
  obtain ⟨r, h', a1, a2, a3, a4, a5, a6, -⟩ := RepE.findRoot hR hx hf
  exact ⟨r, h', a1, a2, a3, a4, a5, a6⟩

theorem Rep.setFa {h : Heap K} {par w} (hR : Rep h par w) {x f fuel} (hx : x < h.size) (hfs : f < h.size)
    (hp : par x = none) (hr : ¬ OnPath par f x)
    (hf : h.size + 1 ≤ fuel) : ∃ h', setFa fuel h x f = .ok h' ∧ h'.size = h.size ∧
      Rep h' (Function.update par x (some f)) w := by
  obtain ⟨h', a1, a2, a3, -⟩ := RepE.setFa hR hx hfs hp hr hf
  exact ⟨h', a1, a2, a3⟩

theorem Rep.cut {h : Heap K} {par w} (hR : Rep h par w) {x fuel} (hx : x < h.size)
    (hp : par x ≠ none) (hf : h.size + 1 ≤ fuel) : ∃ h', cut fuel h x = .ok h' ∧ h'.size = h.size ∧
      Rep h' (Function.update par x none) w := by
  obtain ⟨h', a1, a2, a3, -⟩ := RepE.cut hR hx hp hf
  exact ⟨h', a1, a2, a3⟩

theorem Rep.cutAtRoot {h : Heap K} {par w} (hR : Rep h par w) {x fuel} (hx : x < h.size)
    (hp : par x = none) (hf : h.size + 1 ≤ fuel) : LCT.cut fuel h x = .error .assertFail :=
  RepE.cutAtRoot hR hx hp hf

theorem Rep.setFa_ok {h : Heap K} {par w} (hR : Rep h par w) {x f fuel} (hx : x < h.size)
    (hp : par x = none) (hf : h.size + 1 ≤ fuel) : ∃ h', LCT.setFa fuel h x f = .ok h' :=
  RepE.setFa_ok hR hx hp hf

theorem Rep.setFa_twice {h : Heap K} {par w} (hR : Rep h par w) {x f g fuel} (hx : x < h.size) (hfs : f < h.size)
    (hp : par x = none) (hr : ¬ OnPath par f x) (hf : h.size + 1 ≤ fuel) {h' : Heap K}
    (hh : LCT.setFa fuel h x f = .ok h') : LCT.setFa fuel h' x g = .error .assertFail :=
  RepE.setFa_twice hR hx hfs hp hr hf hh

theorem Rep.getVal {h : Heap K} {par w} (hR : Rep h par w) {x fuel} (hx : x < h.size)
    (hf : h.size + 1 ≤ fuel) : ∃ h', getVal fuel h x = .ok (w x, h') ∧ h'.size = h.size ∧ Rep h' par w := by
  obtain ⟨h', a1, a2, a3, -⟩ := RepE.getVal hR hx hf
  exact ⟨h', a1, a2, a3⟩

theorem Rep.setVal {h : Heap K} {par w} (hR : Rep h par w) {x fuel} (v : K) (hx : x < h.size)
    (hf : h.size + 1 ≤ fuel) : ∃ h', setVal fuel h x v = .ok h' ∧ h'.size = h.size ∧
      Rep h' par (Function.update w x v) := by
  obtain ⟨h', a1, a2, a3, -⟩ := RepE.setVal hR v trivial hx hf
  exact ⟨h', a1, a2, a3⟩

open Classical in
theorem Rep.addVal {h : Heap K} {par w} (hR : Rep h par w) {x fuel} (d : K) (hx : x < h.size)
    (hf : h.size + 1 ≤ fuel) : ∃ h', addValWayToRoot fuel h x d = .ok h' ∧ h'.size = h.size ∧
      Rep h' par (fun v => if OnPath par x v then w v + d else w v) := by
  obtain ⟨h', a1, a2, a3, -⟩ := RepE.addVal hR d hx (fun _ _ => trivial) hf
  exact ⟨h', a1, a2, a3⟩

theorem Rep.getMin {h : Heap K} {par w} (hR : Rep h par w) {x fuel} (hx : x < h.size)
    (hp : par x ≠ none) (hf : h.size + 1 ≤ fuel) : ∃ h' m, getMin fuel h x = .ok ((w m, some m), h') ∧
      h'.size = h.size ∧ Rep h' par w ∧ m < h.size ∧ OnPath par x m ∧ par m ≠ none ∧
      (∀ v, OnPath par x v → par v ≠ none → w m ≤ w v) ∧
      (∀ v, OnPath par x v → par v ≠ none → w v = w m → OnPath par v m) := by
  obtain ⟨h', m, a1, a2, a3, a4, a5, a6, a7, a8, -⟩ := RepE.getMin hR hx hp hf
  exact ⟨h', m, a1, a2, a3, a4, a5, a6, a7, a8⟩

theorem Rep.getMinAtRoot {h : Heap K} {par w} (hR : Rep h par w) {x fuel} (hx : x < h.size)
    (hp : par x = none) (hf : h.size + 1 ≤ fuel) : ∃ h', LCT.getMin fuel h x = .ok ((w x, some x), h') ∧
      h'.size = h.size ∧ Rep h' par w := by
  obtain ⟨h', a1, a2, a3, -⟩ := RepE.getMinAtRoot hR hx hp hf
  exact ⟨h', a1, a2, a3⟩

theorem Rep.lt {h : Heap K} {par w} (hR : Rep h par w) {x y} (hx : x < h.size) (hp : OnPath par x y) :
    y < h.size := RepE.lt hR hx hp

end AHO.LCT
