import Verif.Proof.LCTSInv
import Mathlib.Algebra.BigOperators.Ring.Finset
/-!
# The potential of a link-cut forest

`SInv` is the invariant of `Verif.Proof.LCTAccess` without the values. `pot` is the sum of the potentials of the auxiliary trees.
-/

namespace AHO.LCT
open AHO T
set_option linter.unusedSectionVars false

variable {D : Type} [Add D] [Zero D] [BEq D] [LT D] [LE D] [DecidableLT D] [DecidableLE D]

/-- The auxiliary tree of the node `v`. -/
structure SLoc (h : Heap D) (par : Nat → Option Nat) (tr : Nat → T) (v : Nat) : Prop where
  mem : v ∈ (tr v).io
  same : ∀ u ∈ (tr v).io, tr u = tr v
  nodup : (tr v).io.Nodup
  chain : (tr v).io.IsChain (fun a b => par b = some a)
  shape : Shape h (tr v) ((tr v).io.head?.bind par)

/-- The pointers of `h` represent the forest `par`; `tr` gives the auxiliary trees. -/
structure SInv (h : Heap D) (par : Nat → Option Nat) (tr : Nat → T) : Prop where
  loc : ∀ v, v < h.size → SLoc h par tr v
  range : ∀ v u, par v = some u → v < h.size → u < h.size
  acyc : Acyc par

theorem SLoc.congr {h h' : Heap D} {par par' tr tr' v} (L : SLoc h par tr v)
    (hsz : h'.size = h.size) (htr : ∀ u ∈ (tr v).io, tr' u = tr u)
    (hh : ∀ u ∈ (tr v).io, SamePtr h h' u) (hp : ∀ u ∈ (tr v).io, par' u = par u) : SLoc h' par' tr' v := by
  have e : tr' v = tr v := htr v L.mem
  constructor
  · rw [e]; exact L.mem
  · intro u hu; rw [e] at hu ⊢; rw [htr u hu, L.same u hu]
  · rw [e]; exact L.nodup
  · rw [e, List.isChain_iff_getElem]
    have := L.chain
    rw [List.isChain_iff_getElem] at this
    intro i hi
    rw [hp _ (List.getElem_mem _)]
    exact this i hi
  · rw [e]
    have : (tr v).io.head?.bind par' = (tr v).io.head?.bind par := by
      cases hl : (tr v).io with
      | nil => rfl
      | cons z l => simp [hp z (by simp [hl])]
    rw [this]
    exact L.shape.congr hsz hh

theorem SInv.ptrs {h h' : Heap D} {par tr} (I : SInv h par tr) (p : Ptrs h h') : SInv h' par tr :=
  ⟨fun v hv => (I.loc v (by rw [← p.1]; exact hv)).congr p.1 (fun _ _ => rfl) (fun u _ => p.2 u) fun _ _ => rfl,
    fun v u hvu hv => by rw [p.1] at hv ⊢; exact I.range v u hvu hv, I.acyc⟩

theorem child_mem' {h : Heap D} {t f} (hs : Shape h t f) {g z} (hg : g ∈ t.io)
    (hz : (h.get g).ch0 = some z ∨ (h.get g).ch1 = some z) : z ∈ t.io := by
  induction t generalizing f with
  | nil => simp at hg
  | node l x r ihl ihr =>
    obtain ⟨h1, h2, h3, h4, h5, h6⟩ := hs
    simp only [io_node, List.mem_append, List.mem_cons] at hg ⊢
    rcases hg with hg | rfl | hg
    · exact .inl (ihl h5 hg)
    · rw [h3, h4] at hz
      rcases hz with hz | hz
      · exact .inl (rt_mem hz)
      · exact .inr (.inr (rt_mem hz))
    · exact .inr (.inr (ihr h6 hg))

theorem SInv.rootOK {h : Heap D} {par tr} (I : SInv h par tr) {v} (hv : v < h.size) :
    RootOK h (tr v) ((tr v).io.head?.bind par) := by
  intro g hg
  have L := I.loc v hv
  cases hl : (tr v).io with
  | nil => rw [hl] at hg; simp at hg
  | cons z l =>
    rw [hl] at hg
    simp only [List.head?_cons, Option.bind_some] at hg
    have hz : z < h.size := L.shape.lt (by simp [hl])
    have hgs := I.range z g hg hz
    have hgn : g ∉ (tr v).io := by
      intro hm
      rw [hl] at hm
      have := chain_reach (by rw [← hl]; exact L.chain) g hm
      exact I.acyc g (Relation.TransGen.tail' this hg)
    refine ⟨hgs, hl ▸ hgn, fun k hk => ?_⟩
    rw [← hl] at hk
    have Lg := I.loc g hgs
    have key : ¬ ((h.get g).ch0 = some k ∨ (h.get g).ch1 = some k) := by
      intro hc
      have hkm := child_mem' Lg.shape Lg.mem hc
      have e1 := Lg.same k hkm
      have e2 := L.same k hk
      exact hgn (by rw [← e2, e1]; exact Lg.mem)
    exact ⟨fun e => key (.inl e), fun e => key (.inr e)⟩

theorem SInv.disj {h : Heap D} {par tr} (I : SInv h par tr) {u v k} (hu : u < h.size) (hv : v < h.size)
    (h1 : k ∈ (tr u).io) (h2 : k ∈ (tr v).io) : tr u = tr v := by
  rw [← (I.loc u hu).same k h1, (I.loc v hv).same k h2]

/-! ### The potential -/

/-- the contribution of a node: the potential of its auxiliary tree if it is the root of it -/
noncomputable def potAt (R : Nat → Nat) (tr : Nat → T) (v : Nat) : ℝ := if (tr v).rt = some v then phiR R (tr v) else 0

/-- the potential of the forest -/
noncomputable def pot (N : Nat) (R : Nat → Nat) (tr : Nat → T) : ℝ := ∑ v ∈ Finset.range N, potAt R tr v

theorem pot_class {R : Nat → Nat} {tr : Nat → T} {t : T} (h : ∀ u ∈ t.io, tr u = t) : ∑ v ∈ t.io.toFinset, potAt R tr v = phiR R t := by
  have h1 : ∀ v ∈ t.io.toFinset, potAt R tr v = if t.rt = some v then phiR R t else 0 := fun v hv => by
    rw [potAt, h v (List.mem_toFinset.1 hv)]
  rw [Finset.sum_congr rfl h1]
  cases t with
  | nil => rfl
  | node l x r =>
    simp only [rt_node, Option.some.injEq]
    rw [Finset.sum_ite_eq, if_pos (by simp)]

/-- the potential changes only in the classes which change -/
theorem pot_change {N : Nat} {R : Nat → Nat} {tr tr' : Nat → T} {S : Finset Nat} (hS : ∀ v ∈ S, v < N)
    (h : ∀ v, v < N → v ∉ S → tr' v = tr v) :
    pot N R tr' + ∑ v ∈ S, potAt R tr v = pot N R tr + ∑ v ∈ S, potAt R tr' v := by
  have hsub : S ⊆ Finset.range N := fun v hv => Finset.mem_range.2 (hS v hv)
  unfold pot
  rw [← Finset.sum_sdiff hsub (f := fun v => potAt R tr v), ← Finset.sum_sdiff hsub (f := fun v => potAt R tr' v)]
  have : ∑ v ∈ Finset.range N \ S, potAt R tr' v = ∑ v ∈ Finset.range N \ S, potAt R tr v := by
    refine Finset.sum_congr rfl fun v hv => ?_
    rw [Finset.mem_sdiff, Finset.mem_range] at hv
    rw [potAt, potAt, h v hv.1 hv.2]
  rw [this]
  ring

/-- `splay` on the whole forest -/
theorem SInv.splay {h h' : Heap D} {par tr} (I : SInv h par tr) {x fuel k a0 b0 c} (hx : x < h.size)
    (hfoc : plug (node a0 x b0) c = tr x) (e : splayC fuel h x = .ok (k, h')) :
    ∃ tr' a b, k = 2 * c.length + 1 ∧ h'.size = h.size ∧ SInv h' par tr' ∧
      tr' x = node a x b ∧ (node a x b).io = (tr x).io ∧ (∀ k, k ∉ (tr x).io → tr' k = tr k) ∧
      ((c = [] → node a x b = node a0 x b0) ∧ ∀ y s, c = [(true, y, s)] → node a x b = node (node s y a0) x b0) ∧
      (∀ R, pot h.size R tr' + phiR R (tr x) = pot h.size R tr + phiR R (node a x b)) ∧
      ∀ W : Nat → Nat, (∀ k ∈ (tr x).io, 1 ≤ W k) →
        (c.length : ℝ) + phi W (node a x b) ≤ phi W (tr x) + 3 * (lg (sz W (tr x)) - lg (sz W (node a0 x b0))) + 1 ∧
        phi W (node a x b) ≤ phi W (tr x) + 3 * (lg (sz W (tr x)) - lg (sz W (node a0 x b0))) := by
  have L := I.loc x hx
  obtain ⟨a, b, e1, e2, e3, e4, e5, e6, e7⟩ := splayC_struct (F := (tr x).io.head?.bind par) (by rw [hfoc]; exact L.shape)
    (by rw [hfoc]; exact L.nodup) (by rw [hfoc]; exact I.rootOK hx) e
  rw [hfoc] at e3 e5 e7
  let tr' := fun u => if u ∈ (tr x).io then node a x b else tr u
  have htx : ∀ u, u ∈ (tr x).io → tr' u = node a x b := fun u hu => by simp [tr', hu]
  have hto : ∀ u, u ∉ (tr x).io → tr' u = tr u := fun u hu => by simp [tr', hu]
  refine ⟨tr', a, b, e1, e2, ⟨fun v hv => ?_, fun v u hvu hv => ?_, I.acyc⟩, htx x L.mem, e3, hto, e6,
    fun R => ?_, e7⟩
  · by_cases hm : v ∈ (tr x).io
    · have et := htx v hm
      constructor <;> rw [et]
      · rw [e3]; exact hm
      · intro u hu; rw [e3] at hu; exact htx u hu
      · rw [e3]; exact L.nodup
      · rw [e3]; exact L.chain
      · rw [e3]; exact e4
    · have Lv := I.loc v (by omega)
      have hd : ∀ u ∈ (tr v).io, u ∉ (tr x).io := by
        intro u hu hux
        have := I.disj (by omega) hx hu hux
        exact hm (by rw [← this]; exact Lv.mem)
      exact Lv.congr e2 (fun u hu => hto u (hd u hu)) (fun u hu => e5 u (hd u hu)) (fun _ _ => rfl)
  · have := I.range v u hvu (by omega); omega
  · have key := pot_change (N := h.size) (R := R) (tr := tr) (tr' := tr') (S := (tr x).io.toFinset)
      (fun v hv => L.shape.lt (List.mem_toFinset.1 hv)) (fun v _ hv => hto v fun hm => hv (List.mem_toFinset.2 hm))
    rw [pot_class L.same] at key
    have k2 : ∑ v ∈ (tr x).io.toFinset, potAt R tr' v = phiR R (node a x b) := by
      rw [← e3]
      exact pot_class fun u hu => htx u (by rw [← e3]; exact hu)
    rw [k2] at key
    exact key

/-- the tree of the loop variable `q` of `access` -/
def SQ (h : Heap D) (par : Nat → Option Nat) (tr : Nat → T) (p : Nat) (Q : T) : Prop :=
  (∀ v ∈ Q.io, v < h.size ∧ tr v = Q) ∧ (∀ z, Q.io.head? = some z → par z = some p)

theorem SInv.not_mem {h : Heap D} {par tr} (I : SInv h par tr) {p Q} (hp : p < h.size) (hQ : SQ h par tr p Q) :
    ∀ v ∈ Q.io, v ∉ (tr p).io := by
  intro v hv hvp
  have e1 := (hQ.1 v hv).2
  have e2 := (I.loc p hp).same v hvp
  have e3 : tr p = Q := by rw [← e2, e1]
  cases hl : Q.io with
  | nil => rw [hl] at hv; simp at hv
  | cons z l =>
    have hz := hQ.2 z (by rw [hl]; rfl)
    have hpm : p ∈ z :: l := by rw [← hl, ← e3]; exact (I.loc p hp).mem
    have hc : (z :: l).IsChain (fun a b => par b = some a) := by
      rw [← hl, ← e3]; exact (I.loc p hp).chain
    exact I.acyc p (Relation.TransGen.tail' (chain_reach hc p hpm) hz)

/-- `setc(p, q, 1)` where `p` is the root of its tree -/
theorem SInv.splice {h h2 : Heap D} {par tr} (I : SInv h par tr) {p a b Q} (hp : p < h.size) (hQ : SQ h par tr p Q)
    (ht : tr p = node a p b) (e : setc h p Q.rt true = .ok h2) :
    ∃ tr', h2.size = h.size ∧ SInv h2 par tr' ∧ tr' p = node a p Q ∧ (h2.get p).fa = (node a p Q).io.head?.bind par ∧
      (∀ v ∈ (node a p Q).io, v < h.size ∧ tr' v = node a p Q) ∧
      ∀ R, pot h.size R tr' + phiR R (node a p b) + phiR R Q = pot h.size R tr + phiR R (node a p Q) + phiR R b := by
  have hpQ' := I.not_mem hp hQ
  obtain ⟨q2, q4⟩ := hQ
  have L1 := I.loc p hp
  have hnd := L1.nodup
  have hch := L1.chain
  have hsh := L1.shape
  have hsm := L1.same
  rw [ht] at hnd hch hsh hsm hpQ'
  have hQs : Shape h Q (some p) := by
    cases hl : Q.io with
    | nil => rw [io_eq_nil.1 hl]; trivial
    | cons z l =>
      have hzm : z ∈ Q.io := by simp [hl]
      have Lz := (I.loc z (q2 z hzm).1).shape
      rw [(q2 z hzm).2, hl] at Lz
      simpa [q4 z (by rw [hl]; rfl)] using Lz
  have hQn : Q.io.Nodup := by
    cases hl : Q.io with
    | nil => simp
    | cons z l =>
      have hzm : z ∈ Q.io := by simp [hl]
      have Lz := (I.loc z (q2 z hzm).1).nodup
      rwa [(q2 z hzm).2, hl] at Lz
  have hQc : Q.io.IsChain (fun a b => par b = some a) := by
    cases hl : Q.io with
    | nil => simp
    | cons z l =>
      have hzm : z ∈ Q.io := by simp [hl]
      have Lz := (I.loc z (q2 z hzm).1).chain
      rwa [(q2 z hzm).2, hl] at Lz
  have hqp : Q.rt ≠ some p := by
    intro e
    exact hpQ' p (rt_mem e) (by simp)
  obtain ⟨s1, s2, s3, s4, s5, s6⟩ := hsh
  simp only [io_node, List.nodup_append, List.nodup_cons, List.mem_cons] at hnd
  obtain ⟨hn1, ⟨hn2, hn3⟩, hn4⟩ := hnd
  have nab : ∀ k ∈ a.io, k ∉ b.io := fun k hk hk' => hn4 k hk k (.inr hk') rfl
  have nap : p ∉ a.io := fun hk => hn4 p hk p (.inl rfl) rfl
  have hpQ0 := hpQ'
  simp only [io_node, List.mem_append, List.mem_cons, not_or] at hpQ' hsm
  rw [setc_ok hp (fun c e => (q2 c (rt_mem e)).1)] at e
  cases e
  set h2 := setcH h p Q.rt true with h2def
  have h2sz : h2.size = h.size := setcH_size ..
  have h2get := fun k => setcH_get h p Q.rt true k hqp
  have h2o : ∀ k, k ≠ p → h2.get k = h.get k := by
    intro k hk
    rw [h2def, h2get, if_neg hk]
    split
    · next e =>
      have : (h.get k).fa = some p := by
        cases hq : Q with
        | nil => rw [hq] at e; simp at e
        | node l z r =>
          rw [hq] at e hQs; simp at e; subst e; exact hQs.2.1
      rw [← this]
    · rfl
  have h2p : h2.get p = { h.get p with ch1 := Q.rt } := by
    rw [h2def, h2get, if_pos rfl]; rfl
  have sa : Shape h2 a (some p) := s5.congr h2sz fun k hk => by
    rw [SamePtr, h2o k (by rintro rfl; exact nap hk)]; simp
  have sQ : Shape h2 Q (some p) := hQs.congr h2sz fun k hk => by
    rw [SamePtr, h2o k (hpQ' k hk).2.1]; simp
  have hsNew : Shape h2 (node a p Q) (h.get p).fa :=
    ⟨by omega, by rw [h2p], by rw [h2p]; exact s3, by rw [h2p], sa, sQ⟩
  have hnNew : (node a p Q).io.Nodup := by
    simp only [io_node, List.nodup_append, List.nodup_cons, List.mem_cons]
    refine ⟨hn1, ⟨fun h => (hpQ' p h).2.1 rfl, hQn⟩, ?_⟩
    rintro k hk k' (rfl | hk') rfl
    · exact nap hk
    · exact (hpQ' k hk').1 hk
  let tr' := fun u => if u ∈ (node a p Q).io then node a p Q else if u ∈ b.io then b else tr u
  have t1 : ∀ u ∈ (node a p Q).io, tr' u = node a p Q := fun u hu => by simp only [tr', hu, if_true]
  have hbN : ∀ u ∈ b.io, u ∉ (node a p Q).io := by
    intro u hu
    simp only [io_node, List.mem_append, List.mem_cons, not_or]
    exact ⟨fun h => nab u h hu, by rintro rfl; exact hn2 hu, fun h => (hpQ' u h).2.2 hu⟩
  have t2 : ∀ u ∈ b.io, tr' u = b := fun u hu => by simp only [tr', hbN u hu, hu, if_true, if_false]
  have t3 : ∀ u, u ∉ (node a p Q).io → u ∉ b.io → tr' u = tr u := fun u hu hu' => by
    simp only [tr', hu, hu', if_false]
  have hhead : (node a p Q).io.head? = (node a p b).io.head? := by
    cases hl : a.io <;> simp [hl]
  have hlt : ∀ v ∈ (node a p Q).io, v < h.size := fun v hv => by
    have := hsNew.lt hv; omega
  refine ⟨tr', h2sz, ⟨fun v hv => ?_, fun v u hvu hv => ?_, I.acyc⟩, t1 p (by simp), ?_, fun v hv => ⟨hlt v hv, t1 v hv⟩, fun R => ?_⟩
  · have hv1 : v < h.size := by omega
    by_cases c1 : v ∈ (node a p Q).io
    · have et := t1 v c1
      constructor <;> rw [et]
      · exact c1
      · exact t1
      · exact hnNew
      · rw [io_node, List.isChain_append] at hch ⊢
        refine ⟨hch.1, ?_, ?_⟩
        · rw [List.isChain_cons]
          exact ⟨fun z hz => q4 z hz, hQc⟩
        · simpa using hch.2.2
      · rw [hhead, ← s2]; exact hsNew
    by_cases c2 : v ∈ b.io
    · have et := t2 v c2
      constructor <;> rw [et]
      · exact c2
      · exact t2
      · exact hn3
      · rw [io_node, List.isChain_append, List.isChain_cons] at hch
        exact hch.2.1.2
      · have : b.io.head?.bind par = some p := by
          cases hl : b.io with
          | nil => rw [hl] at c2; simp at c2
          | cons z l =>
            rw [io_node, List.isChain_append, List.isChain_cons] at hch
            simpa using hch.2.1.1 z (by rw [hl]; rfl)
        rw [this]
        exact s6.congr h2sz fun k hk => by
          rw [SamePtr, h2o k (by rintro rfl; exact hn2 hk)]; simp
    · have Lv := I.loc v hv1
      have hd : ∀ u ∈ (tr v).io, u ∉ (node a p Q).io ∧ u ∉ b.io := by
        intro u hu
        have eu := Lv.same u hu
        have key : u ∉ (node a p b).io := by
          intro hm
          have := I.disj hv1 (v := p) (by omega) hu (by rw [ht]; exact hm)
          have hvm : v ∈ (node a p b).io := by rw [← ht, ← this]; exact Lv.mem
          simp only [io_node, List.mem_append, List.mem_cons, not_or] at hvm c1 c2
          tauto
        have keyQ : u ∉ Q.io := by
          intro hm
          have := (q2 u hm).2
          rw [eu] at this
          have hvm : v ∈ Q.io := by rw [← this]; exact Lv.mem
          simp only [io_node, List.mem_append, List.mem_cons, not_or] at c1
          tauto
        simp only [io_node, List.mem_append, List.mem_cons, not_or] at key ⊢
        tauto
      refine Lv.congr h2sz (fun u hu => t3 u (hd u hu).1 (hd u hu).2) (fun u hu => ?_) (fun _ _ => rfl)
      rw [SamePtr, h2o u ?_]
      · simp
      · rintro rfl
        exact (hd u hu).1 (by simp)
  · have := I.range v u hvu (by omega)
    omega
  · rw [h2p, hhead]
    exact s2
  · have hdis1 : Disjoint (node a p b).io.toFinset Q.io.toFinset := by
      rw [Finset.disjoint_left]
      intro v hv hv'
      exact hpQ0 v (List.mem_toFinset.1 hv') (List.mem_toFinset.1 hv)
    have hdis2 : Disjoint (node a p Q).io.toFinset b.io.toFinset := by
      rw [Finset.disjoint_left]
      intro v hv hv'
      exact hbN v (List.mem_toFinset.1 hv') (List.mem_toFinset.1 hv)
    have hun : (node a p b).io.toFinset ∪ Q.io.toFinset = (node a p Q).io.toFinset ∪ b.io.toFinset := by
      ext v
      simp only [Finset.mem_union, List.mem_toFinset, io_node, List.mem_append, List.mem_cons]
      tauto
    have key := pot_change (N := h.size) (R := R) (tr := tr) (tr' := tr') (S := (node a p b).io.toFinset ∪ Q.io.toFinset)
      (fun v hv => by
        rw [hun, Finset.mem_union, List.mem_toFinset, List.mem_toFinset] at hv
        rcases hv with hv | hv
        · exact hlt v hv
        · exact s6.lt hv)
      (fun v _ hv => by
        rw [hun, Finset.mem_union, List.mem_toFinset, List.mem_toFinset, not_or] at hv
        exact t3 v hv.1 hv.2)
    rw [Finset.sum_union hdis1, hun, Finset.sum_union hdis2, pot_class t1, pot_class t2,
      pot_class (t := Q) fun u hu => (q2 u hu).2, pot_class (t := node a p b) fun u hu => by
        simp only [io_node, List.mem_append, List.mem_cons] at hu; exact hsm u hu] at key
    linarith

end AHO.LCT
