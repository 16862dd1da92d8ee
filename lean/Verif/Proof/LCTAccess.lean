import Verif.Proof.LCTSplay
import Mathlib.Logic.Relation
import Mathlib.Data.List.Chain
import Mathlib.Data.List.Perm.Subperm
/-!
# The whole link-cut forest; `access`
-/

namespace AHO.LCT
open AHO T
set_option linter.unusedSectionVars false

variable {K : Type} [AddCommGroup K] [LinearOrder K] [IsOrderedAddMonoid K]
variable {R : Type} [Add R] [Zero R] [BEq R] [LT R] [LE R] [DecidableLT R] [DecidableLE R] {E : Emb K R}

/-- `a` reaches `b` by following parents -/
def Up (par : Nat → Option Nat) (a b : Nat) : Prop := par a = some b

/-- no node is its own proper ancestor -/
def Acyc (par : Nat → Option Nat) : Prop := ∀ v, ¬ Relation.TransGen (Up par) v v

/-- What is known about the auxiliary tree of the node `v`. -/
structure Loc (E : Emb K R) (h : Heap K) (par : Nat → Option Nat) (w : Nat → K) (tr : Nat → T) (v : Nat) : Prop where
  mem : v ∈ (tr v).io
  same : ∀ u ∈ (tr v).io, tr u = tr v
  nodup : (tr v).io.Nodup
  chain : (tr v).io.IsChain (fun a b => par b = some a)
  shape : Shape h (tr v) ((tr v).io.head?.bind par)
  good : GoodRoot E h w (tr v)

/-- The heap `h` represents the forest `par` with values `w`; `tr` gives the auxiliary trees. -/
structure Inv (E : Emb K R) (h : Heap K) (par : Nat → Option Nat) (w : Nat → K) (tr : Nat → T) : Prop where
  loc : ∀ v, v < h.size → Loc E h par w tr v
  range : ∀ v u, par v = some u → v < h.size → u < h.size
  acyc : Acyc par

theorem Loc.congr {h h' : Heap K} {par par' w w' tr tr' v} (L : Loc E h par w tr v)
    (hsz : h'.size = h.size) (htr : ∀ u ∈ (tr v).io, tr' u = tr u)
    (hh : ∀ u ∈ (tr v).io, h'.get u = h.get u) (hp : ∀ u ∈ (tr v).io, par' u = par u)
    (hw : ∀ u ∈ (tr v).io, w' u = w u) : Loc E h' par' w' tr' v := by
  have e : tr' v = tr v := htr v L.mem
  constructor
  · rw [e]; exact L.mem
  · intro u hu; rw [e] at hu ⊢; rw [htr u hu, L.same u hu]
  · rw [e]; exact L.nodup
  · rw [e]
    rw [List.isChain_iff_getElem] 
    have := L.chain
    rw [List.isChain_iff_getElem] at this
    intro i hi
    rw [hp _ (List.getElem_mem _)]
    exact this i hi
  · rw [e]
    have : (tr v).io.head?.bind par' = (tr v).io.head?.bind par := by
      cases hl : (tr v).io with
      | nil => rfl
      | cons z l => simp [hp z (by simp [hl])]
    rw [this]
    exact L.shape.congr hsz fun k hk => by simp [SamePtr, hh k hk]
  · rw [e]
    exact L.good.congr (fun k hk => by simp [SameVal, hh k hk]) hw

theorem Shape.child_mem {h : Heap K} {t f} (hs : Shape h t f) {g z} (hg : g ∈ t.io)
    (hz : (h.get g).ch0 = some z ∨ (h.get g).ch1 = some z) : z ∈ t.io := by
  induction t generalizing f with
  | nil => simp at hg
  | node l x r ihl ihr =>
    obtain ⟨h1, h2, h3, h4, h5, h6⟩ := hs
    simp only [io_node, List.mem_append, List.mem_cons] at hg ⊢
    rcases hg with hg | rfl | hg
    · exact .inl (ihl h5 hg)
    · rw [h3, h4] at hz
      rcases hz with hz | hz
      · exact .inl (rt_mem hz)
      · exact .inr (.inr (rt_mem hz))
    · exact .inr (.inr (ihr h6 hg))

/-- along a chain everything reaches the head -/
theorem chain_reach {par : Nat → Option Nat} : ∀ {l : List Nat} {z}, (z :: l).IsChain (fun a b => par b = some a) →
    ∀ u ∈ z :: l, Relation.ReflTransGen (Up par) u z := by
  intro l
  induction l with
  | nil => intro z _ u hu; simp at hu; subst hu; exact .refl
  | cons y l ih =>
    intro z hc u hu
    rw [List.isChain_cons_cons] at hc
    rw [List.mem_cons] at hu
    rcases hu with rfl | hu
    · exact .refl
    · exact (ih hc.2 u hu).tail hc.1

theorem Inv.rootOK {h : Heap K} {par w tr} (I : Inv E h par w tr) {v} (hv : v < h.size) :
    RootOK h (tr v) ((tr v).io.head?.bind par) := by
  intro g hg
  have L := I.loc v hv
  cases hl : (tr v).io with
  | nil => rw [hl] at hg; simp at hg
  | cons z l =>
    rw [hl] at hg
    simp only [List.head?_cons, Option.bind_some] at hg
    have hz : z < h.size := L.shape.lt (by simp [hl])
    have hgs := I.range z g hg hz
    have hgn : g ∉ (tr v).io := by
      intro hm
      rw [hl] at hm
      have := chain_reach (by rw [← hl]; exact L.chain) g hm
      exact I.acyc g (Relation.TransGen.tail' this hg)
    refine ⟨hgs, hl ▸ hgn, fun k hk => ?_⟩
    rw [← hl] at hk
    have Lg := I.loc g hgs
    have key : ¬ ((h.get g).ch0 = some k ∨ (h.get g).ch1 = some k) := by
      intro hc
      have hkm := Lg.shape.child_mem Lg.mem hc
      have e1 := Lg.same k hkm
      have e2 := L.same k hk
      exact hgn (by rw [← e2, e1]; exact Lg.mem)
    exact ⟨fun e => key (.inl e), fun e => key (.inr e)⟩

theorem Inv.length_le {h : Heap K} {par w tr} (I : Inv E h par w tr) {v} (hv : v < h.size) :
    (tr v).io.length ≤ h.size := by
  have L := I.loc v hv
  have : (tr v).io.Subperm (List.range h.size) :=
    List.subperm_of_subset L.nodup fun k hk => List.mem_range.2 (L.shape.lt hk)
  simpa using this.length_le

/-- the trees of different classes are disjoint -/
theorem Inv.disj {h : Heap K} {par w tr} (I : Inv E h par w tr) {u v k} (hu : u < h.size) (hv : v < h.size)
    (h1 : k ∈ (tr u).io) (h2 : k ∈ (tr v).io) : tr u = tr v := by
  rw [← (I.loc u hu).same k h1, (I.loc v hv).same k h2]

/-- `splay` on the whole forest -/
theorem Inv.splay {h : Heap K} {par w tr} (I : Inv E h par w tr) {x fuel} (hx : x < h.size)
    (hf : h.size ≤ fuel) :
    ∃ h' tr' a b, splay fuel h x = .ok h' ∧ h'.size = h.size ∧ Inv E h' par w tr' ∧
      tr' x = node a x b ∧ (node a x b).io = (tr x).io ∧ Good E h' w (node a x b) [] ∧
      (h'.get x).add = 0 ∧ (∀ k, k ∉ (tr x).io → h'.get k = h.get k) ∧
      (∀ k, k ∉ (tr x).io → tr' k = tr k) ∧ LCT.splay fuel (E.h h) x = .ok (E.h h') := by
  have L := I.loc x hx
  obtain ⟨h', a, b, e1, e2, e3, e4, e5, e6, e7, e8⟩ := splay_spec L.mem L.shape L.nodup (I.rootOK hx) L.good
    (le_trans (I.length_le hx) hf)
  let tr' := fun u => if u ∈ (tr x).io then node a x b else tr u
  have htx : ∀ u, u ∈ (tr x).io → tr' u = node a x b := fun u hu => by simp [tr', hu]
  have hto : ∀ u, u ∉ (tr x).io → tr' u = tr u := fun u hu => by simp [tr', hu]
  refine ⟨h', tr', a, b, e1, e2, ⟨fun v hv => ?_, fun v u hvu hv => ?_, I.acyc⟩, htx x L.mem, e3, e6, e7,
    e5, hto, e8⟩
  · by_cases hm : v ∈ (tr x).io
    · have et := htx v hm
      constructor <;> rw [et]
      · rw [e3]; exact hm
      · intro u hu; rw [e3] at hu; exact htx u hu
      · rw [e3]; exact L.nodup
      · rw [e3]; exact L.chain
      · rw [e3]; exact e4
      · exact e6.root
    · have Lv := I.loc v (by omega)
      have hd : ∀ u ∈ (tr v).io, u ∉ (tr x).io := by
        intro u hu hux
        have := I.disj (by omega) hx hu hux
        exact hm (by rw [← this]; exact Lv.mem)
      exact Lv.congr e2 (fun u hu => hto u (hd u hu)) (fun u hu => e5 u (hd u hu))
        (fun _ _ => rfl) (fun _ _ => rfl)
  · have := I.range v u hvu (by omega); omega

/-- the loop variable `q` of `access` together with its tree -/
def QOK (E : Emb K R) (h : Heap K) (par : Nat → Option Nat) (w : Nat → K) (tr : Nat → T) (p : Nat) (q : Option Nat) (Q : T) :
    Prop :=
  Q.rt = q ∧ (∀ v ∈ Q.io, v < h.size ∧ tr v = Q) ∧ Good E h w Q [] ∧ (∀ z, Q.io.head? = some z → par z = some p)

theorem access_step {h : Heap K} {par w tr} (I : Inv E h par w tr) {p q Q fuel} (hp : p < h.size)
    (hf : h.size ≤ fuel) (hQ : QOK E h par w tr p q Q) :
    ∃ h1 h2 h' tr' a, splay fuel h p = .ok h1 ∧ setc h1 p q true = .ok h2 ∧ pushUp h2 p = .ok h' ∧
      h'.size = h.size ∧ Inv E h' par w tr' ∧
      tr' p = node a p Q ∧ Good E h' w (node a p Q) [] ∧ splay fuel (E.h h) p = .ok (E.h h1) ∧
      setc (E.h h1) p q true = .ok (E.h h2) ∧ pushUp (E.h h2) p = .ok (E.h h') := by
  obtain ⟨q1, q2, q3, q4⟩ := hQ
  have hpQ : ∀ v ∈ Q.io, v ∉ (tr p).io := by
    intro v hv hvp
    have e1 := (q2 v hv).2
    have e2 := (I.loc p hp).same v hvp
    have e3 : tr p = Q := by rw [← e2, e1]
    -- p would be in Q, and reach the head of Q, whose parent is p
    cases hl : Q.io with
    | nil => rw [hl] at hv; simp at hv
    | cons z l =>
      have hz := q4 z (by rw [hl]; rfl)
      have hpm : p ∈ z :: l := by rw [← hl, ← e3]; exact (I.loc p hp).mem
      have hc : (z :: l).IsChain (fun a b => par b = some a) := by
        rw [← hl, ← e3]; exact (I.loc p hp).chain
      exact I.acyc p (Relation.TransGen.tail' (chain_reach hc p hpm) hz)
  obtain ⟨h1, tr1, a, b, e1, e2, I1, e4, e5, e6, e7, e8, e9, e10⟩ := I.splay hp hf
  have L1 := I1.loc p (by omega)
  have hnd := L1.nodup
  have hch := L1.chain
  have hsh := L1.shape
  have hsm := L1.same
  rw [e4] at hnd hch hsh hsm
  -- Q in the new heap
  have hQ1 : ∀ v ∈ Q.io, tr1 v = Q := fun v hv => by rw [e9 v (hpQ v hv), (q2 v hv).2]
  have hQg : Good E h1 w Q [] := q3.congr (fun k hk => by simp [SameVal, e8 k (hpQ k hk)]) (fun _ _ => rfl)
  have hpQ' : ∀ v ∈ Q.io, v ∉ (node a p b).io := by rw [e5]; exact hpQ
  have hQs : Shape h1 Q (some p) := by
    cases hl : Q.io with
    | nil => rw [io_eq_nil.1 hl]; trivial
    | cons z l =>
      have hzm : z ∈ Q.io := by simp [hl]
      have Lz := (I1.loc z (by have := (q2 z hzm).1; omega)).shape
      rw [hQ1 z hzm, hl] at Lz
      simpa [q4 z (by rw [hl]; rfl)] using Lz
  have hQn : Q.io.Nodup := by
    cases hl : Q.io with
    | nil => simp
    | cons z l =>
      have hzm : z ∈ Q.io := by simp [hl]
      have Lz := (I1.loc z (by have := (q2 z hzm).1; omega)).nodup
      rwa [hQ1 z hzm, hl] at Lz
  have hQc : Q.io.IsChain (fun a b => par b = some a) := by
    cases hl : Q.io with
    | nil => simp
    | cons z l =>
      have hzm : z ∈ Q.io := by simp [hl]
      have Lz := (I1.loc z (by have := (q2 z hzm).1; omega)).chain
      rwa [hQ1 z hzm, hl] at Lz
  have hqp : q ≠ some p := by
    intro e
    exact hpQ p (rt_mem (q1.trans e)) (I.loc p hp).mem
  obtain ⟨s1, s2, s3, s4, s5, s6⟩ := hsh
  simp only [io_node, List.nodup_append, List.nodup_cons, List.mem_cons] at hnd
  obtain ⟨hn1, ⟨hn2, hn3⟩, hn4⟩ := hnd
  have nab : ∀ k ∈ a.io, k ∉ b.io := fun k hk hk' => hn4 k hk k (.inr hk') rfl
  have nap : p ∉ a.io := fun hk => hn4 p hk p (.inl rfl) rfl
  simp only [io_node, List.mem_append, List.mem_cons, not_or] at hpQ' hsm
  set h2 := setcH h1 p q true with h2def
  have h2sz : h2.size = h1.size := setcH_size ..
  have h2get := fun k => setcH_get h1 p q true k hqp
  have h2o : ∀ k, k ≠ p → h2.get k = h1.get k := by
    intro k hk
    rw [h2def, h2get, if_neg hk]
    split
    · next e =>
      have : (h1.get k).fa = some p := by
        cases hq : Q with
        | nil => rw [hq] at q1; simp at q1; rw [← q1] at e; simp at e
        | node l z r =>
          rw [hq] at q1 hQs; simp at q1; rw [← q1] at e; simp at e; subst e; exact hQs.2.1
      rw [← this]
    · rfl
  have h2p : h2.get p = { h1.get p with ch1 := q } := by
    rw [h2def, h2get, if_pos rfl]; rfl
  have sa : Shape h2 a (some p) := s5.congr h2sz fun k hk => by
    rw [SamePtr, h2o k (by rintro rfl; exact nap hk)]; simp
  have sQ : Shape h2 Q (some p) := hQs.congr h2sz fun k hk => by
    rw [SamePtr, h2o k (hpQ' k hk).2.1]; simp
  have hsNew : Shape h2 (node a p Q) (h1.get p).fa :=
    ⟨by omega, by rw [h2p], by rw [h2p]; exact s3, by rw [h2p]; exact q1.symm, sa, sQ⟩
  have hnNew : (node a p Q).io.Nodup := by
    simp only [io_node, List.nodup_append, List.nodup_cons, List.mem_cons]
    refine ⟨hn1, ⟨fun h => (hpQ' p h).2.1 rfl, hQn⟩, ?_⟩
    rintro k hk k' (rfl | hk') rfl
    · exact nap hk
    · exact (hpQ' k hk').1 hk
  obtain ⟨⟨g1, gI, -⟩, -, g3, g4⟩ := e6
  simp only [e7, List.sum_nil, add_zero] at g1 g3 g4
  rw [← g1] at gI
  have ga : Good E h2 w a [] := g3.zero.congr (fun k hk => by
    rw [SameVal, h2o k (by rintro rfl; exact nap hk)]; simp) (fun _ _ => rfl)
  have gQ : Good E h2 w Q [] := hQg.congr (fun k hk => by
    rw [SameVal, h2o k (hpQ' k hk).2.1]; simp) (fun _ _ => rfl)
  have gb : Good E h2 w b [] := g4.zero.congr (fun k hk => by
    rw [SameVal, h2o k (by rintro rfl; exact hn2 hk)]; simp) (fun _ _ => rfl)
  have gNew := pushUp_good hsNew hnNew ga gQ ⟨by rw [h2p]; exact g1, gI⟩ (by rw [h2p]; exact e7)
  set h3 := pushUpH h2 p with h3def
  have h3o : ∀ k, k ≠ p → h3.get k = h1.get k := fun k hk => by rw [h3def, pushUpH_ne _ hk, h2o k hk]
  have hsN3 : Shape h3 (node a p Q) (h1.get p).fa := hsNew.congr rfl fun k _ => pushUpH_ptr _ _ _
  let tr' := fun u => if u ∈ (node a p Q).io then node a p Q else if u ∈ b.io then b else tr1 u
  have t1 : ∀ u ∈ (node a p Q).io, tr' u = node a p Q := fun u hu => by simp only [tr', hu, if_true]
  have hbN : ∀ u ∈ b.io, u ∉ (node a p Q).io := by
    intro u hu
    simp only [io_node, List.mem_append, List.mem_cons, not_or]
    exact ⟨fun h => nab u h hu, by rintro rfl; exact hn2 hu, fun h => (hpQ' u h).2.2 hu⟩
  have t2 : ∀ u ∈ b.io, tr' u = b := fun u hu => by simp only [tr', hbN u hu, hu, if_true, if_false]
  have t3 : ∀ u, u ∉ (node a p Q).io → u ∉ b.io → tr' u = tr1 u := fun u hu hu' => by
    simp only [tr', hu, hu', if_false]
  have hhead : (node a p Q).io.head? = (node a p b).io.head? := by
    cases hl : a.io <;> simp [hl]
  have hset : setc h1 p q true = .ok h2 := setc_ok (by omega) (fun c e => by
    have := (q2 c (rt_mem (q1.trans e))).1; omega)
  refine ⟨h1, h2, h3, tr', a, e1, hset, pushUp_shape hsNew, by
    simp [h3def, h2sz, e2], ⟨fun v hv => ?_, fun v u hvu hv => ?_, I.acyc⟩, t1 p (by simp), gNew, e10,
    sim_map (setc_sim E h1 p q true) hset, pushUp_simE hsNew ga gQ ⟨by rw [h2p]; exact g1, gI⟩⟩
  · have hv1 : v < h1.size := by simpa [h3def, h2sz] using hv
    by_cases c1 : v ∈ (node a p Q).io
    · have et := t1 v c1
      constructor <;> rw [et]
      · exact c1
      · exact t1
      · exact hnNew
      · -- chain
        rw [io_node, List.isChain_append] at hch ⊢
        refine ⟨hch.1, ?_, ?_⟩
        · rw [List.isChain_cons]
          exact ⟨fun z hz => q4 z hz, hQc⟩
        · simpa using hch.2.2
      · rw [hhead, ← s2]; exact hsN3
      · exact gNew.root
    by_cases c2 : v ∈ b.io
    · have et := t2 v c2
      constructor <;> rw [et]
      · exact c2
      · exact t2
      · exact hn3
      · rw [io_node, List.isChain_append, List.isChain_cons] at hch
        exact hch.2.1.2
      · have : b.io.head?.bind par = some p := by
          cases hl : b.io with
          | nil => rw [hl] at c2; simp at c2
          | cons z l =>
            rw [io_node, List.isChain_append, List.isChain_cons] at hch
            simpa using hch.2.1.1 z (by rw [hl]; rfl)
        rw [this]
        exact s6.congr (by simp [h3def, h2sz]) fun k hk => by
          rw [SamePtr, h3o k (by rintro rfl; exact hn2 hk)]; simp
      · exact (gb.congr (fun k hk => by
          rw [SameVal, h3def, pushUpH_ne _ (by rintro rfl; exact hn2 hk)]; simp) (fun _ _ => rfl)).root
    · have Lv := I1.loc v hv1
      have hd : ∀ u ∈ (tr1 v).io, u ∉ (node a p Q).io ∧ u ∉ b.io := by
        intro u hu
        have eu := Lv.same u hu
        have key : u ∉ (node a p b).io := by
          intro hm
          have := I1.disj hv1 (v := p) (by omega) hu (by rw [e4]; exact hm)
          have hvm : v ∈ (node a p b).io := by rw [← e4, ← this]; exact Lv.mem
          simp only [io_node, List.mem_append, List.mem_cons, not_or] at hvm c1 c2
          tauto
        have keyQ : u ∉ Q.io := by
          intro hm
          have := hQ1 u hm
          rw [eu] at this
          have hvm : v ∈ Q.io := by rw [← this]; exact Lv.mem
          simp only [io_node, List.mem_append, List.mem_cons, not_or] at c1
          tauto
        simp only [io_node, List.mem_append, List.mem_cons, not_or] at key ⊢
        tauto
      refine Lv.congr (by simp [h3def, h2sz]) (fun u hu => t3 u (hd u hu).1 (hd u hu).2) (fun u hu => ?_)
        (fun _ _ => rfl) (fun _ _ => rfl)
      refine h3o u ?_
      rintro rfl
      exact (hd u hu).1 (by simp)
  · have hv1 : v < h1.size := by simpa [h3def, h2sz] using hv
    have := I1.range v u hvu hv1
    simpa [h3def, h2sz] using this

theorem accessLoop_spec {par : Nat → Option Nat} {w : Nat → K} {fuel0} : ∀ (fuel : Nat) (h : Heap K) tr Q q,
    Inv E h par w tr → h.size ≤ fuel0 → Q.rt = some q → (∀ v ∈ Q.io, v < h.size ∧ tr v = Q) → Good E h w Q [] →
    h.size + 1 ≤ fuel + Q.io.length →
    ∃ h' tr' Q', accessLoop fuel0 fuel h (Q.io.head?.bind par) (some q) = .ok h' ∧ h'.size = h.size ∧
      Inv E h' par w tr' ∧ Q.io <:+ Q'.io ∧ (∀ v ∈ Q'.io, tr' v = Q') ∧ (Q'.io.head?.bind par) = none ∧
      accessLoop fuel0 fuel (E.h h) (Q.io.head?.bind par) (some q) = .ok (E.h h') := by
  intro fuel
  induction fuel with
  | zero =>
    intro h tr Q q I hf0 hq hQ hg hf
    exfalso
    have h1 := (hQ q (rt_mem hq))
    have := I.length_le h1.1
    rw [h1.2] at this
    omega
  | succ fuel ih =>
    intro h tr Q q I hf0 hq hQ hg hf
    cases hp : Q.io.head?.bind par with
    | none => exact ⟨h, tr, Q, rfl, rfl, I, List.suffix_refl _, fun v hv => (hQ v hv).2, hp, rfl⟩
    | some p =>
      obtain ⟨z, hz, hzp⟩ : ∃ z, Q.io.head? = some z ∧ par z = some p := by
        simpa [Option.bind_eq_some_iff] using hp
      have hzQ : z ∈ Q.io := List.mem_of_mem_head? (by rw [hz]; rfl)
      have hps := I.range z p hzp (hQ z hzQ).1
      obtain ⟨h1, h2, h', tr', a, e1, e2, e3, e4, I', e5, e6, f1, f2, f3⟩ := access_step I hps hf0
        (q := some q) ⟨hq, hQ, hg, fun z' hz' => by rw [hz] at hz'; cases hz'; exact hzp⟩
      have Lp := I'.loc p (by omega)
      have hfa : (h'.get p).fa = ((node a p Q).io.head?.bind par) := by
        have := Lp.shape; rw [e5] at this; exact this.2.1
      obtain ⟨h3, tr3, Q3, k1, k2, k3, k4, k5, k6, k7⟩ := ih h' tr' (node a p Q) p I' (by omega) rfl
        (fun v hv => by
          have := Lp.same v (by rw [e5]; exact hv)
          exact ⟨by have := Lp.shape.lt (k := v) (by rw [e5]; exact hv); omega, by rw [this, e5]⟩)
        e6 (by simp only [io_node, List.length_append, List.length_cons]; omega)
      refine ⟨h3, tr3, Q3, ?_, by omega, k3, ?_, k5, k6, ?_⟩
      rotate_right
      · simp only [accessLoop, f1, f2, f3, ok_bind]
        rw [rd_sim, Vec.rd_ok (by omega), map_ok, ok_bind, emb_fa, hfa, k7]
      · simp only [accessLoop, e1, e2, e3, ok_bind]
        rw [Vec.rd_ok (by omega), ok_bind, hfa, k1]
      · refine List.IsSuffix.trans ?_ k4
        rw [io_node]
        exact ⟨a.io ++ [p], by simp⟩

/-- `access` turns the whole path from the root to `x` into one auxiliary tree with root `x`. -/
theorem Inv.access {h : Heap K} {par w tr} (I : Inv E h par w tr) {x fuel} (hx : x < h.size)
    (hf : h.size + 1 ≤ fuel) :
    ∃ h' tr' A, access fuel h x = .ok h' ∧ h'.size = h.size ∧ Inv E h' par w tr' ∧
      tr' x = node A x nil ∧ Good E h' w (node A x nil) [] ∧ (h'.get x).add = 0 ∧
      (node A x nil).io.head?.bind par = none ∧ LCT.access fuel (E.h h) x = .ok (E.h h') := by
  obtain ⟨fuel, rfl⟩ : ∃ k, fuel = k + 1 := ⟨fuel - 1, by omega⟩
  obtain ⟨h1, h2, h', tr', a, e1, e2, e3, e4, I', e5, e6, f1, f2, f3⟩ := access_step (fuel := fuel + 1) (q := none)
    (Q := nil) I hx (by omega) ⟨rfl, by simp, trivial, by simp⟩
  have Lp := I'.loc x (by omega)
  have hfa : (h'.get x).fa = ((node a x nil).io.head?.bind par) := by
    have := Lp.shape; rw [e5] at this; exact this.2.1
  obtain ⟨h3, tr3, Q3, k1, k2, k3, k4, k5, k6, k7⟩ := accessLoop_spec (fuel0 := fuel + 1) fuel h' tr' (node a x nil) x
    I' (by omega) rfl (fun v hv => by
          have := Lp.same v (by rw [e5]; exact hv)
          exact ⟨by have := Lp.shape.lt (k := v) (by rw [e5]; exact hv); omega, by rw [this, e5]⟩) e6
    (by simp only [io_node, List.length_append, List.length_cons]; omega)
  have hxQ : x ∈ Q3.io := k4.subset (by simp)
  obtain ⟨h4, tr4, A, b, m1, m2, m3, m4, m5, m6, m7, m8, m9, m10⟩ := k3.splay (x := x) (fuel := fuel + 1) (by omega) (by omega)
  rw [k5 x hxQ] at m5
  have hb : b = nil := by
    rw [← io_eq_nil]
    have hn := (m3.loc x (by omega)).nodup
    rw [m4] at hn
    obtain ⟨L, hL⟩ := k4
    rw [← m5] at hL
    simp only [io_node, io_nil] at hL hn
    by_contra hb
    have hx1 : x ∈ b.io := by
      have h5 : (A.io ++ x :: b.io).getLast? = some x := by rw [← hL]; simp
      rw [List.getLast?_append, List.getLast?_cons] at h5
      cases hbl : b.io.getLast? with
      | none => rw [List.getLast?_eq_none_iff] at hbl; exact absurd hbl hb
      | some z => rw [hbl] at h5; simp at h5; subst h5; exact List.mem_of_getLast? hbl
    simp only [List.nodup_append, List.nodup_cons] at hn
    exact hn.2.1.1 hx1
  subst hb
  refine ⟨h4, tr4, A, ?_, by omega, m3, m4, m6, m7, by rw [m5]; exact k6, ?_⟩
  rotate_right
  · unfold LCT.access
    simp only [accessLoop, f1, f2, f3, ok_bind]
    rw [rd_sim, Vec.rd_ok (by omega), map_ok, ok_bind, emb_fa, hfa, k7, ok_bind, m10]
  unfold LCT.access
  simp only [accessLoop, e1, e2, e3, ok_bind]
  rw [Vec.rd_ok (by omega), ok_bind, hfa, k1, ok_bind, m1]

end AHO.LCT
