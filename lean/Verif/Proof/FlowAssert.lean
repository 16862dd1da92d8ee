import Verif.Proof.LCTGood
/-!
# The assertions of `Flow` hold, whatever the costs

Nothing is assumed about the arithmetic. One situation needs care: `send` has pushed the whole imbalance `b` of a node, but `b - b == 0` does not
hold (for instance because `b` is infinite), so the node stays at the front of the queue although it is linked (`Twice`). Then it is linked once
more, with the same edge; the assertion in `set_fa` does not notice, because the node is the root of its auxiliary tree, and `find_root` does not
end. Nothing is said about whether the loops end.
-/

namespace AHO.Flow.NoAss
open AHO LCT
set_option linter.unusedSectionVars false

variable {D : Type} [Zero D] [Add D] [Sub D] [Neg D] [LT D] [LE D] [DecidableLT D] [DecidableLE D] [BEq D]
variable {s s' : Flow D} {imax : Int} {fuel p : Nat}

omit [Zero D] [Add D] [Sub D] [Neg D] [LT D] [LE D] [DecidableLT D] [DecidableLE D] [BEq D] in
theorem vrd_inv {α : Type} {v : Vec α} {i : Nat} {x : α} (e : v.rd i = .ok x) : i < v.size ∧ x = v.get i := by
  unfold Vec.rd at e
  split at e
  · cases e; exact ⟨by assumption, rfl⟩
  · cases e

omit [Zero D] [Add D] [Sub D] [Neg D] [LT D] [LE D] [DecidableLT D] [DecidableLE D] [BEq D] in
theorem listRd_inv {α : Type} {l : List α} {i : Nat} {x : α} (e : listRd l i = .ok x) : l[i]? = some x := by
  unfold listRd at e
  split at e
  · next h => cases e; exact h
  · cases e

/-- the trees agree with `fa`, the sizes agree, no callback is a failed assertion, the edges come in pairs, and the current edge of a node with a
parent leads to the parent -/
structure AInv (s : Flow D) : Prop where
  rep : PRep s.nodes s.fa.get
  fs : s.fa.size = s.nodes.size
  ss : s.scaling.size = s.nodes.size
  cb : ∀ k x, NF ((s.edges.get k).fn x)
  ge : ∀ v k, k ∈ s.G.get v → (s.edges.get k).i = v
  tw : ∀ k, k < s.edges.size → (s.edges.get (k ^^^ 1)).i = (s.edges.get k).j
  sz : s.fa.size = s.n + 1
  cur : ∀ v j, v < s.fa.size → s.fa.get v = some j → ∃ k, (s.G.get v)[s.currentEdge.get v]? = some k ∧ k < s.edges.size ∧ (s.edges.get k).j = j

/-- the queue has no duplicates and knows its elements -/
structure QInv (q : UQ) : Prop where
  nodup : q.queue.Nodup
  mem : ∀ v ∈ q.queue, q.isIn.get v = true

theorem qinv_init (n : Nat) : QInv (UQ.mk' n) := ⟨by simp [UQ.mk'], fun v hv => by simp [UQ.mk'] at hv⟩

theorem push_nf (q : UQ) (x : Nat) : NF (q.push x) := by
  unfold UQ.push
  refine (NF.rd _ _).bind fun b _ => ?_
  split
  · exact .ok
  · exact (NF.wr _ _ _).bind fun _ _ => .ok

theorem QInv.push {q q' : UQ} (Q : QInv q) {x : Nat} (e : q.push x = .ok q') : QInv q' ∧ (q' = q ∨ q'.queue = q.queue ++ [x]) := by
  unfold UQ.push at e
  obtain ⟨b, e1, e⟩ := bind_ok e
  obtain ⟨hx, rfl⟩ := vrd_inv e1
  split at e
  · cases e
    exact ⟨Q, .inl rfl⟩
  · next hb =>
    obtain ⟨v, e2, e⟩ := bind_ok e
    cases e
    rw [Vec.wr_ok _ hx] at e2
    cases e2
    refine ⟨⟨?_, fun v hv => ?_⟩, .inr rfl⟩
    · refine List.nodup_append.2 ⟨Q.nodup, by simp, fun a ha b hb' hab => hb ?_⟩
      have : b = x := by simpa using hb'
      rw [← this, ← hab]
      exact Q.mem a ha
    · rw [Vec.set_get]
      split
      · rfl
      · next hv' =>
        refine Q.mem v ?_
        simpa [hv'] using hv

theorem QInv.pop {q q' : UQ} (Q : QInv q) {x : Nat} {tl : List Nat} (hq : q.queue = x :: tl) (e : q.pop = .ok q') : QInv q' ∧ q'.queue = tl := by
  unfold UQ.pop at e
  rw [hq] at e
  obtain ⟨v, e1, e⟩ := bind_ok e
  cases e
  have hn := Q.nodup
  rw [hq, List.nodup_cons] at hn
  unfold Vec.wr at e1
  split at e1
  · cases e1
    refine ⟨⟨hn.2, fun v hv => ?_⟩, rfl⟩
    rw [Vec.set_get]
    split
    · next h => subst h; exact absurd hv hn.1
    · exact Q.mem v (by rw [hq]; exact List.mem_cons_of_mem _ hv)
  · cases e1

theorem pop_nf (q : UQ) : NF q.pop := by
  unfold UQ.pop
  split
  · exact fun h => by cases h
  · exact (NF.wr _ _ _).bind fun _ _ => .ok

theorem front_nf (q : UQ) : NF q.front := by
  unfold UQ.front
  split <;> exact fun h => by cases h

theorem ceilDiv_nf (a b : Int) : NF (ceilDiv imax a b) := by
  unfold ceilDiv
  split
  · exact fun h => by cases h
  · exact NF.ck _ _

theorem q_nf (hcb : ∀ k x, NF ((s.edges.get k).fn x)) (e_id : Nat) : NF (q imax s e_id) := by
  unfold q
  refine (NF.rd _ _).bind fun e he => (NF.rd _ _).bind fun si _ => (NF.rd _ _).bind fun sj _ => (NF.ck _ _).bind fun num _ =>
    NF.bind (NF.ck _ _) fun den _ => (ceilDiv_nf _ _).bind fun c _ => (NF.ck _ _).bind fun t _ => (NF.ck _ _).bind fun t1 _ =>
    (NF.rd _ _).bind fun f _ => ?_
  obtain ⟨-, rfl⟩ := vrd_inv he
  split
  · exact .ok
  · split
    · exact .ok
    · exact (hcb _ _).bind fun _ _ => (hcb _ _).bind fun _ _ => .ok

theorem q_lt {e_id : Nat} {v : D} (h : q imax s e_id = .ok v) : e_id < s.edges.size ∧ (s.edges.get e_id).j < s.scaling.size := by
  unfold q at h
  obtain ⟨e, he, h⟩ := bind_ok h
  obtain ⟨h1, rfl⟩ := vrd_inv he
  obtain ⟨si, -, h⟩ := bind_ok h
  obtain ⟨sj, hj, h⟩ := bind_ok h
  exact ⟨h1, (vrd_inv hj).1⟩

theorem addFlowOfEdge_nf (s : Flow D) (e_id : Nat) (x : D) : NF (addFlowOfEdge s e_id x) :=
  (NF.rd _ _).bind fun _ _ => (NF.wr _ _ _).bind fun _ _ => (NF.rd _ _).bind fun _ _ => (NF.wr _ _ _).bind fun _ _ => .ok

theorem wr_get {α : Type} {v w : Vec α} {i : Nat} {x : α} (h : v.wr i x = .ok w) : i < v.size ∧ w = v.set i x := by
  unfold Vec.wr at h
  split at h
  · next hi => cases h; exact ⟨hi, rfl⟩
  · cases h

theorem addFlowOfEdge_eq {e_id : Nat} {x : D} (e : addFlowOfEdge s e_id x = .ok s') : ∃ fl, s' = { s with flows := fl } ∧
    ∀ k, k ≠ e_id → k ≠ e_id ^^^ 1 → fl.rd k = s.flows.rd k := by
  unfold addFlowOfEdge at e
  obtain ⟨f, -, e⟩ := bind_ok e
  obtain ⟨f1, e1, e⟩ := bind_ok e
  obtain ⟨f, -, e⟩ := bind_ok e
  obtain ⟨f2, e2, e⟩ := bind_ok e
  cases e
  refine ⟨_, rfl, fun k h1 h2 => ?_⟩
  obtain ⟨-, rfl⟩ := wr_get e1
  obtain ⟨-, rfl⟩ := wr_get e2
  unfold Vec.rd
  rw [Vec.set_get, if_neg h2, Vec.set_get, if_neg h1]
  rfl

/-- what `q` depends on -/
theorem q_congr {k : Nat} (h1 : s'.edges = s.edges) (h2 : s'.scaling = s.scaling) (h3 : s'.n = s.n) (h4 : s'.M = s.M)
    (h5 : s'.flows.rd k = s.flows.rd k) : q imax s' k = q imax s k := by
  unfold q
  rw [h1, h2, h3, h4, h5]

theorem set_get_update {α : Type} (v : Vec α) (i : Nat) (x : α) : (v.set i x).get = Function.update v.get i x := by
  funext k
  rw [Vec.set_get, Function.update_apply]

/-- `cut` of a node with a parent -/
theorem AInv.cut (I : AInv s) (hp : s.fa.get p ≠ none) : NA (cut imax fuel s p) (fun s' => AInv s' ∧ s'.fa = s.fa.set p none ∧
    s'.uq = s.uq ∧ ∃ h fl km, s' = { s with fa := s.fa.set p none, nodes := h, flows := fl } ∧ (s.G.get p)[s.currentEdge.get p]? = some km ∧
      ∀ k, k ≠ km → k ≠ km ^^^ 1 → fl.rd k = s.flows.rd k) := by
  unfold Flow.cut
  refine NA.bind (NF.wr _ _ _).na fun fa e1 _ => ?_
  refine NA.bind (I.rep.cut hp) fun h e2 hh => ?_
  obtain ⟨h1, h2⟩ := hh
  refine NA.bind (NF.rd _ _).na fun g eg _ => NA.bind (NF.rd _ _).na fun k ek _ => NA.bind (NF.listRd _ _).na fun e_id ee _ => ?_
  obtain ⟨-, rfl⟩ := vrd_inv eg
  obtain ⟨-, rfl⟩ := vrd_inv ek
  refine NA.bind (q_nf I.cb _).na fun v _ _ => ?_
  refine NA.bind (getVal_nf _ _ _).na fun r e3 _ => ?_
  obtain ⟨w, h'⟩ := r
  obtain ⟨g1, g2⟩ := h1.getVal e3
  refine ⟨addFlowOfEdge_nf _ _ _, fun s' e4 => ?_⟩
  obtain ⟨fl, rfl, hfl⟩ := addFlowOfEdge_eq e4
  have hps : p < s.fa.size := by
    unfold Vec.wr at e1
    split at e1
    · assumption
    · cases e1
  rw [Vec.wr_ok _ hps] at e1
  cases e1
  refine ⟨⟨?_, ?_, ?_, I.cb, I.ge, I.tw, I.sz, fun v j hvs hv => ?_⟩, rfl, rfl, _, _, _, rfl, listRd_inv ee, hfl⟩
  · show PRep h' (s.fa.set p none).get
    rw [set_get_update]
    exact g1
  · show s.fa.size = h'.size
    rw [g2, h2, I.fs]
  · show s.scaling.size = h'.size
    rw [g2, h2, I.ss]
  · refine I.cur v j hvs ?_
    have hv : (s.fa.set p none).get v = some j := hv
    rw [Vec.set_get] at hv
    split at hv
    · cases hv
    · exact hv

/-- `link` of a node without a parent -/
theorem AInv.link (I : AInv s) (hp : s.fa.get p = none) : NA (link imax fuel s p) (fun s' => ∃ j h, s' = { s with fa := s.fa.set p (some j), nodes := h } ∧
    (AInv s' ∨ ∃ S : Nat → Prop, S p ∧ Clo s'.nodes S)) := by
  unfold Flow.link
  refine NA.bind (NF.rd _ _).na fun g eg _ => NA.bind (NF.rd _ _).na fun k ek _ => NA.bind (NF.listRd _ _).na fun e_id ee _ => ?_
  obtain ⟨-, rfl⟩ := vrd_inv eg
  obtain ⟨-, rfl⟩ := vrd_inv ek
  refine NA.bind (NF.rd _ _).na fun e e0 _ => NA.bind (NF.wr _ _ _).na fun fa e1 _ => ?_
  obtain ⟨he0, rfl⟩ := vrd_inv e0
  refine NA.bind (q_nf I.cb _).na fun v e2 _ => ?_
  have hj : (s.edges.get e_id).j < s.nodes.size := by rw [← I.ss]; exact (q_lt e2).2
  refine NA.bind (setVal_nf _ _ _ _).na fun h e3 _ => ?_
  obtain ⟨g1, g2⟩ := I.rep.setVal e3
  refine NA.bind (g1.setFa hp (by rw [g2]; exact hj)) fun h' e4 hh => NA.ok ?_
  have hps : p < s.fa.size := by
    unfold Vec.wr at e1
    split at e1
    · assumption
    · cases e1
  rw [Vec.wr_ok _ hps] at e1
  cases e1
  obtain ⟨h1, h2⟩ := hh
  refine ⟨(s.edges.get e_id).j, h', rfl, ?_⟩
  rcases h2 with ⟨-, h2⟩ | h2
  · refine .inl ⟨?_, ?_, ?_, I.cb, I.ge, I.tw, I.sz, fun v j hvs hv => ?_⟩
    · show PRep h' (s.fa.set p (some _)).get
      rw [set_get_update]
      exact h2
    · show s.fa.size = h'.size
      rw [h1, g2, I.fs]
    · show s.scaling.size = h'.size
      rw [h1, g2, I.ss]
    · have hv : (s.fa.set p (some (s.edges.get e_id).j)).get v = some j := hv
      rw [Vec.set_get] at hv
      by_cases hvp : v = p
      · subst hvp
        rw [if_pos rfl] at hv
        exact ⟨e_id, listRd_inv ee, he0, Option.some.inj hv⟩
      · rw [if_neg hvp] at hv
        exact I.cur v j hvs hv
  · exact .inr h2

/-- `q` of the current edge of `p` is positive -/
def Pos (imax : Int) (s : Flow D) (p : Nat) : Prop := ∃ k x, (s.G.get p)[s.currentEdge.get p]? = some k ∧ q imax s k = .ok x ∧ 0 < x

/-- a node which is linked but will be linked again -/
structure Twice (imax : Int) (s : Flow D) (p : Nat) : Prop where
  fa : s.fa.get p ≠ none
  top : (s.nodes.get p).fa = none
  pos : Pos imax s p

/-- `link` of a node which has a parent already -/
theorem AInv.linkTwice (I : AInv s) (T : Twice imax s p) : NA (Flow.link imax fuel s p) (fun s' => ∃ S : Nat → Prop, S p ∧ Clo s'.nodes S) := by
  unfold Flow.link
  refine NA.bind (NF.rd _ _).na fun g eg _ => NA.bind (NF.rd _ _).na fun k ek _ => NA.bind (NF.listRd _ _).na fun e_id ee _ => ?_
  obtain ⟨-, rfl⟩ := vrd_inv eg
  obtain ⟨-, rfl⟩ := vrd_inv ek
  refine NA.bind (NF.rd _ _).na fun e e0 _ => NA.bind (NF.wr _ _ _).na fun fa e1 _ => ?_
  obtain ⟨he0, rfl⟩ := vrd_inv e0
  refine NA.bind (q_nf I.cb _).na fun v e2 _ => ?_
  refine NA.bind (setVal_nf _ _ _ _).na fun h e3 _ => ?_
  obtain ⟨g1, g2⟩ := I.rep.setVal e3
  have hj : s.fa.get p = some (s.edges.get e_id).j := by
    cases hf : s.fa.get p with
    | none => exact absurd hf T.fa
    | some j =>
      obtain ⟨k, c1, -, c3⟩ := I.cur p j (wr_get e1).1 hf
      rw [listRd_inv ee] at c1
      cases c1
      rw [c3]
  exact NA.bind (g1.setFa_twice (setVal_top T.top e3) hj) fun h' e4 hh => NA.ok hh

theorem enqueueActive_nf (s : Flow D) (i : Nat) : NF (enqueueActive s i) := by
  unfold enqueueActive
  refine (NF.rd _ _).bind fun b _ => ?_
  split
  · exact (push_nf _ _).bind fun _ _ => .ok
  · exact .ok

theorem enqueueActive_eq {i : Nat} (Q : QInv s.uq) (e : enqueueActive s i = .ok s') : ∃ uq, s' = { s with uq := uq } ∧ QInv uq ∧
    (uq = s.uq ∨ uq.queue = s.uq.queue ++ [i]) := by
  unfold enqueueActive at e
  obtain ⟨b, -, e⟩ := bind_ok e
  split at e
  · obtain ⟨uq, e1, e⟩ := bind_ok e
    cases e
    exact ⟨uq, rfl, Q.push e1⟩
  · cases e
    exact ⟨s.uq, rfl, Q, .inl rfl⟩

/-- the queue while `p` is at its front: every other element is a root -/
structure QFront (s : Flow D) (p : Nat) : Prop where
  inv : QInv s.uq
  front : ∃ tl, s.uq.queue = p :: tl
  root : ∀ v ∈ s.uq.queue, v ≠ p → s.fa.get v = none

theorem sendPush_na {root : Nat} {x : D} (I : AInv s) (Q : QFront s p) (hr : s.fa.get root = none) :
    NA (sendPush fuel s p root x) (fun s' => AInv s' ∧ QFront s' p ∧ s'.fa = s.fa ∧ (s'.nodes.get p).fa = none ∧
      ∃ h im uq, s' = { s with nodes := h, imbalances := im, uq := uq }) := by
  unfold sendPush
  refine NA.bind (addValWayToRoot_nf _ _ _ _).na fun h e1 _ => ?_
  obtain ⟨g1, g2⟩ := I.rep.addVal e1
  refine NA.bind (NF.rd _ _).na fun bp e2 _ => NA.bind (NF.wr _ _ _).na fun im e3 _ => NA.bind (NF.rd _ _).na fun br e4 _ =>
    NA.bind (NF.wr _ _ _).na fun im2 e5 _ => ⟨enqueueActive_nf _ _, fun s' e6 => ?_⟩
  obtain ⟨k1, rfl⟩ := vrd_inv e2
  rw [Vec.wr_ok _ k1] at e3
  cases e3
  obtain ⟨k2, rfl⟩ := vrd_inv e4
  rw [Vec.wr_ok _ k2] at e5
  cases e5
  obtain ⟨uq, rfl, q1, q2⟩ := enqueueActive_eq (by exact Q.inv) e6
  refine ⟨⟨g1, ?_, ?_, I.cb, I.ge, I.tw, I.sz, I.cur⟩, ⟨q1, ?_, ?_⟩, rfl, I.rep.addVal_top e1, _, _, _, rfl⟩
  · show s.fa.size = h.size
    rw [g2, I.fs]
  · show s.scaling.size = h.size
    rw [g2, I.ss]
  · obtain ⟨tl, ht⟩ := Q.front
    rcases q2 with q2 | q2
    · exact ⟨tl, by show uq.queue = _; rw [q2]; exact ht⟩
    · exact ⟨tl ++ [root], by show uq.queue = _; rw [q2]; show s.uq.queue ++ _ = _; rw [ht]; rfl⟩
  · intro v hv hvp
    show s.fa.get v = none
    rcases q2 with q2 | q2
    · exact Q.root v (by have hv : v ∈ uq.queue := hv; rw [q2] at hv; exact hv) hvp
    · have hv : v ∈ uq.queue := hv
      rw [q2] at hv
      rcases List.mem_append.1 hv with hv | hv
      · exact Q.root v hv hvp
      · have : v = root := by simpa using hv
        rw [this]; exact hr

/-- after an operation on the front `p` of the queue -/
structure Done (imax : Int) (s : Flow D) (p n : Nat) : Prop where
  inv : AInv s
  q : QFront s p
  fin : s.fa.get p = none ∨ Twice imax s p
  n : s.n = n

theorem sendLoop_na (imax : Int) (fuel0 p : Nat) : ∀ (fuel : Nat) {s : Flow D} {root : Nat}, AInv s → QFront s p → s.fa.get root = none →
    OnPath s.fa.get p root → Pos imax s p → NA (sendLoop imax fuel0 p fuel s root) (fun s' => Done imax s' p s.n)
  | 0, _, _, _, _, _, _, _ => by
    unfold sendLoop
    exact ⟨fun h => (by cases h), fun _ e => (by cases e)⟩
  | fuel + 1, s, root, I, Q, hr, ho, hq => by
    unfold sendLoop
    by_cases hpr : p = root
    · rw [if_neg (by simpa using hpr)]
      exact NA.ok ⟨I, Q, .inl (by rw [hpr]; exact hr), rfl⟩
    · rw [if_pos hpr]
      have hp : s.fa.get p ≠ none := by
        rcases ho.cases_head with h | ⟨c, hc, -⟩
        · exact absurd h hpr
        · rw [Up] at hc; rw [hc]; simp
      refine NA.bind (getMin_nf _ _ _).na fun r e1 _ => ?_
      obtain ⟨⟨v, m2⟩, h⟩ := r
      obtain ⟨g1, g2, g3⟩ := I.rep.getMin hp e1
      have I1 : AInv { s with nodes := h } := ⟨g1, by show s.fa.size = h.size; rw [g2, I.fs], by show s.scaling.size = h.size; rw [g2, I.ss], I.cb, I.ge, I.tw, I.sz, I.cur⟩
      have Q1 : QFront { s with nodes := h } p := ⟨Q.inv, Q.front, Q.root⟩
      refine NA.bind (NF.rd _ _).na fun bp e2 _ => ?_
      obtain ⟨-, rfl⟩ := vrd_inv e2
      dsimp only
      split
      · next hlt =>
        refine (sendPush_na I1 Q1 hr).mono fun s' _ h => ?_
        obtain ⟨a, b, c, d, h2, im, uq, rfl⟩ := h
        exact ⟨a, b, .inr ⟨hp, d, hq⟩, rfl⟩
      · refine NA.bind (sendPush_na I1 Q1 hr) fun s1 e3 h1 => ?_
        obtain ⟨I2, Q2, f2, -, h2, im, uq, rfl⟩ := h1
        refine NA.bind (NF.deref _).na fun m e4 _ => ?_
        have hm : m2 = some m := by
          cases m2 with
          | none => cases e4
          | some m' => cases e4; rfl
        obtain ⟨m1', m2', m3⟩ := g3 m hm
        refine NA.bind (I2.cut m2') fun s2 e5 h2 => ?_
        obtain ⟨I3, f3, u3, h3, fl, km, hs2, hkm, hfl⟩ := h2
        have f3' : s2.fa.get = Function.update s.fa.get m none := by rw [f3, set_get_update]
        have Q3 : QFront s2 p := by
          refine ⟨by rw [u3]; exact Q2.inv, by rw [u3]; exact Q2.front, fun v hv hvp => ?_⟩
          rw [u3] at hv
          have : s.fa.get v = none := Q2.root v hv hvp
          rw [f3', Function.update_apply, this]
          simp
        by_cases hmp : m = p
        · -- the loop ends
          subst hmp
          refine ⟨?_, fun s3 e6 => ?_⟩
          · cases fuel with
            | zero => exact fun h => by cases h
            | succ fuel => unfold sendLoop; rw [if_neg (by simp)]; exact .ok
          · cases fuel with
            | zero => cases e6
            | succ fuel =>
              unfold sendLoop at e6
              rw [if_neg (by simp)] at e6
              cases e6
              exact ⟨I3, Q3, .inl (by rw [f3']; simp), by rw [hs2]⟩
        · have hq3 : Pos imax s2 p := by
            obtain ⟨k, x, k1, k2, k3⟩ := hq
            refine ⟨k, x, by rw [hs2]; exact k1, ?_, k3⟩
            have hkp := I.ge p k (List.mem_of_getElem? k1)
            have hkm' := I.ge m km (List.mem_of_getElem? hkm)
            obtain ⟨jm, hjm⟩ : ∃ j, s.fa.get m = some j := by
              cases hf : s.fa.get m with
              | none => exact absurd hf m2'
              | some j => exact ⟨j, rfl⟩
            obtain ⟨km2, c1, c2, c3⟩ := I.cur m jm (by rw [I.fs]; exact m1') hjm
            have hkm : (s.G.get m)[s.currentEdge.get m]? = some km := hkm
            rw [hkm] at c1
            cases c1
            have n1 : k ≠ km := by
              rintro rfl
              exact hmp (hkm'.symm.trans hkp)
            have n2 : k ≠ km ^^^ 1 := by
              rintro rfl
              have := I.tw km c2
              rw [hkp, c3] at this
              subst this
              exact I.rep.acyc m3 hjm
            have hc := hfl k n1 n2
            rw [← k2, hs2]
            exact q_congr rfl rfl rfl rfl hc
          refine (sendLoop_na imax fuel0 p fuel I3 Q3 (by rw [f3']; simp) (by rw [f3']; exact onPath_cut m3) hq3).mono fun s3 _ d => ?_
          exact ⟨d.inv, d.q, d.fin, by rw [d.n, hs2]⟩

theorem send_na (I : AInv s) (Q : QFront s p) (hq : Pos imax s p) : NA (send imax fuel s p) (fun s' => Done imax s' p s.n) := by
  unfold send
  refine NA.bind (findRoot_nf _ _ _).na fun r e1 _ => ?_
  obtain ⟨root, h⟩ := r
  obtain ⟨g1, g2, -, -, g3, g4⟩ := I.rep.findRoot e1
  exact sendLoop_na imax fuel p fuel (s := { s with nodes := h })
    ⟨g1, by show s.fa.size = h.size; rw [g2, I.fs], by show s.scaling.size = h.size; rw [g2, I.ss], I.cb, I.ge, I.tw, I.sz, I.cur⟩ ⟨Q.inv, Q.front, Q.root⟩ g3 g4 hq

theorem cutChildren_na : ∀ (es : List Nat) {s : Flow D}, AInv s → QFront s p → s.fa.get p = none →
    NA (cutChildren imax fuel p es s) (fun s' => AInv s' ∧ QFront s' p ∧ s'.fa.get p = none ∧ s'.n = s.n)
  | [], s, I, Q, h => NA.ok ⟨I, Q, h, rfl⟩
  | e_id :: es, s, I, Q, h => by
    unfold cutChildren
    refine NA.bind (NF.rd _ _).na fun e _ _ => NA.bind (NF.rd _ _).na fun f e1 _ => ?_
    obtain ⟨-, rfl⟩ := vrd_inv e1
    split
    · next hf =>
      refine NA.bind (I.cut (by rw [hf]; simp)) fun s1 _ h1 => ?_
      obtain ⟨I3, f3, u3, h3, fl, km, hs1, -⟩ := h1
      have f3' : s1.fa.get = Function.update s.fa.get e.j none := by rw [f3, set_get_update]
      refine (cutChildren_na es I3 ⟨by rw [u3]; exact Q.inv, by rw [u3]; exact Q.front, fun v hv hvp => ?_⟩ ?_).mono fun s2 _ h2 => ?_
      · rw [u3] at hv
        rw [f3', Function.update_apply, Q.root v hv hvp]
        simp
      · rw [f3', Function.update_apply, h]
        simp
      · exact ⟨h2.1, h2.2.1, h2.2.2.1, by rw [h2.2.2.2, hs1]⟩
    · exact NA.bind (NA.ok (P := fun s' => s' = s) rfl) fun s1 _ h1 => by rw [h1]; exact cutChildren_na es I Q h

theorem updateScaling_na (I : AInv s) (Q : QFront s p) (h : s.fa.get p = none) : NA (updateScaling imax fuel s p) (fun s' => Done imax s' p s.n) := by
  unfold updateScaling
  refine NA.bind (NF.rd _ _).na fun g _ _ => NA.bind (cutChildren_na g I Q h) fun s1 _ h1 => ?_
  obtain ⟨I1, Q1, f1, n1⟩ := h1
  refine NA.bind (NF.rd _ _).na fun v e1 _ => NA.bind (NF.ck _ _).na fun v' _ _ => NA.bind (NF.wr _ _ _).na fun sc e2 _ =>
    NA.bind (NF.wr _ _ _).na fun ce e3 _ => NA.ok ?_
  obtain ⟨k1, -⟩ := vrd_inv e1
  rw [Vec.wr_ok _ k1] at e2
  cases e2
  obtain ⟨-, rfl⟩ := wr_get e3
  refine ⟨⟨I1.rep, I1.fs, I1.ss, I1.cb, I1.ge, I1.tw, I1.sz, fun v j hvs hv => ?_⟩, ⟨Q1.inv, Q1.front, Q1.root⟩, .inl f1, n1⟩
  have hvp : v ≠ p := by
    rintro rfl
    have hv : s1.fa.get v = some j := hv
    rw [f1] at hv; cases hv
  show ∃ k, (s1.G.get v)[(s1.currentEdge.set p 0).get v]? = some k ∧ _
  rw [Vec.set_get, if_neg hvp]
  exact I1.cur v j hvs hv

theorem choiceLoop_na (imax : Int) (fuel0 p : Nat) : ∀ (fuel : Nat) {s : Flow D}, AInv s → QFront s p → s.fa.get p = none →
    NA (choiceLoop imax fuel0 p fuel s) (fun s' => Done imax s' p s.n)
  | 0, _, _, _, _ => by
    unfold choiceLoop
    exact ⟨fun h => (by cases h), fun _ e => (by cases e)⟩
  | fuel + 1, s, I, Q, h => by
    unfold choiceLoop
    refine NA.bind (NF.rd _ _).na fun k ek _ => NA.bind (NF.rd _ _).na fun g eg _ => ?_
    obtain ⟨-, rfl⟩ := vrd_inv eg
    obtain ⟨-, rfl⟩ := vrd_inv ek
    split
    · refine NA.bind (NF.listRd _ _).na fun e_id ee _ => NA.bind (q_nf I.cb _).na fun x ex _ => ?_
      split
      · next hx =>
        refine NA.bind (I.link h) fun s1 e1 h1 => ?_
        obtain ⟨j, hp, rfl, h1⟩ := h1
        rcases h1 with h1 | ⟨S, hS, hC⟩
        · refine send_na h1 ⟨Q.inv, Q.front, fun v hv hvp => ?_⟩ ⟨e_id, x, listRd_inv ee, ex, hx⟩
          show (s.fa.set p (some j)).get v = none
          rw [Vec.set_get, if_neg hvp]
          exact Q.root v hv hvp
        · refine ⟨?_, fun s' e => ?_⟩
          · unfold send
            refine (findRoot_nf _ _ _).bind fun r er => ?_
            exact absurd er (hC.findRoot hS)
          · unfold send at e
            obtain ⟨r, er, -⟩ := bind_ok e
            exact absurd er (hC.findRoot hS)
      · refine NA.bind (NF.wr _ _ _).na fun ce ec _ => ?_
        obtain ⟨-, rfl⟩ := wr_get ec
        refine choiceLoop_na imax fuel0 p fuel (s := { s with currentEdge := _ }) ⟨I.rep, I.fs, I.ss, I.cb, I.ge, I.tw, I.sz, fun v j hvs hv => ?_⟩
          ⟨Q.inv, Q.front, Q.root⟩ h
        have hvp : v ≠ p := by
          rintro rfl
          have hv : s.fa.get v = some j := hv
          rw [h] at hv; cases hv
        show ∃ k, (s.G.get v)[(s.currentEdge.set p _).get v]? = some k ∧ _
        rw [Vec.set_get, if_neg hvp]
        exact I.cur v j hvs hv
    · exact updateScaling_na I Q h

/-- a node which is linked already: `find_root` does not end -/
theorem choiceLoop_twice (imax : Int) (fuel0 p : Nat) : ∀ (fuel : Nat) {s : Flow D}, AInv s → Twice imax s p →
    NA (choiceLoop imax fuel0 p fuel s) (fun _ => False)
  | 0, _, _, _ => by
    unfold choiceLoop
    exact ⟨fun h => (by cases h), fun _ e => (by cases e)⟩
  | fuel + 1, s, I, T => by
    unfold choiceLoop
    refine NA.bind (NF.rd _ _).na fun k ek _ => NA.bind (NF.rd _ _).na fun g eg _ => ?_
    obtain ⟨-, rfl⟩ := vrd_inv eg
    obtain ⟨-, rfl⟩ := vrd_inv ek
    obtain ⟨k, x, k1, k2, k3⟩ := T.pos
    have hlt : s.currentEdge.get p < (s.G.get p).length := (List.getElem?_eq_some_iff.1 k1).1
    rw [if_pos hlt]
    refine NA.bind (NF.listRd _ _).na fun e_id ee _ => ?_
    have := listRd_inv ee
    rw [k1] at this
    cases this
    rw [k2, ok_bind, if_pos k3]
    refine NA.bind (I.linkTwice T) fun s1 _ h1 => ?_
    obtain ⟨S, hS, hC⟩ := h1
    refine ⟨?_, fun s' e => ?_⟩
    · unfold send
      refine (findRoot_nf _ _ _).bind fun r er => ?_
      exact absurd er (hC.findRoot hS)
    · unfold send at e
      obtain ⟨r, er, -⟩ := bind_ok e
      exact absurd er (hC.findRoot hS)

/-- between two operations: every element of the queue is a root, except that the first one may be about to be linked again -/
structure Between (imax : Int) (s : Flow D) (n : Nat) : Prop where
  inv : AInv s
  q : QInv s.uq
  root : ∀ v ∈ s.uq.queue, s.fa.get v = none ∨ (s.uq.queue.head? = some v ∧ Twice imax s v)
  hn : s.n = n

theorem refineStep_na {n : Nat} (B : Between imax s n) : NA (refineStep imax fuel s) (fun s' => Between imax s' n) := by
  unfold refineStep
  refine NA.bind (front_nf _).na fun p e1 _ => ?_
  obtain ⟨tl, ht⟩ : ∃ tl, s.uq.queue = p :: tl := by
    unfold UQ.front at e1
    split at e1
    · cases e1
    · next hq => cases e1; exact ⟨_, hq⟩
  have hd : NA (choiceOperator imax fuel s p) (fun s' => Done imax s' p s.n) := by
    rcases B.root p (by rw [ht]; simp) with h | ⟨-, h⟩
    · refine choiceLoop_na imax fuel p fuel B.inv ⟨B.q, ⟨tl, ht⟩, fun v hv hvp => ?_⟩ h
      rcases B.root v hv with h | ⟨h, -⟩
      · exact h
      · rw [ht] at h
        exact absurd (Option.some.inj h).symm hvp
    · exact (choiceLoop_twice imax fuel p fuel B.inv h).mono fun _ _ h => h.elim
  refine NA.bind hd fun s1 _ d => ?_
  obtain ⟨tl', ht'⟩ := d.q.front
  refine NA.bind (front_nf _).na fun p' e2 _ => ?_
  have hpp : p' = p := by
    unfold UQ.front at e2
    rw [ht'] at e2
    cases e2; rfl
  subst hpp
  refine NA.bind (NF.rd _ _).na fun b e3 _ => ?_
  obtain ⟨-, rfl⟩ := vrd_inv e3
  have hn := d.q.inv.nodup
  rw [ht', List.nodup_cons] at hn
  have hroot : ∀ v ∈ tl', s1.fa.get v = none := fun v hv =>
    d.q.root v (by rw [ht']; exact List.mem_cons_of_mem _ hv) (by rintro rfl; exact hn.1 hv)
  split
  · refine NA.bind (pop_nf _).na fun uq e4 _ => NA.ok ?_
    obtain ⟨q1, q2⟩ := d.q.inv.pop ht' e4
    refine ⟨⟨d.inv.rep, d.inv.fs, d.inv.ss, d.inv.cb, d.inv.ge, d.inv.tw, d.inv.sz, d.inv.cur⟩, q1, fun v hv => ?_, by show s1.n = n; rw [d.n, B.hn]⟩
    have hv : v ∈ uq.queue := hv
    rw [q2] at hv
    exact .inl (hroot v hv)
  · next hb =>
    refine NA.ok ⟨d.inv, d.q.inv, fun v hv => ?_, by rw [d.n, B.hn]⟩
    rw [ht'] at hv
    rcases List.mem_cons.1 hv with rfl | hv
    · rcases d.fin with h | h
      · exact .inl h
      · exact .inr ⟨by rw [ht']; rfl, h⟩
    · exact .inl (hroot v hv)

/-- between two phases: the queue is empty and there are no links -/
structure Idle (imax : Int) (s : Flow D) (n : Nat) : Prop extends Between imax s n where
  empty : s.uq.queue = []
  cut : ∀ v, v < n + 1 → s.fa.get v = none

theorem refine_na {n : Nat} (B : Between imax s n) : NA (refine imax fuel s) (fun s' => Idle imax s' n) := by
  unfold refine
  refine NA.bind (NA.whileLoop (P := fun s => Between imax s n) (fun _ _ => .ok) (fun s' B' _ => refineStep_na B') fuel s B) fun s1 _ h1 => ?_
  obtain ⟨B1, hc⟩ := h1
  have he : s1.uq.queue = [] := by
    have : (!s1.uq.empty) = false := by injection hc
    unfold UQ.empty at this
    simpa using this
  rw [B1.hn]
  refine (NA.forRange (P := fun i (s : Flow D) => Between imax s n ∧ s.uq.queue = [] ∧ ∀ v, v < i → s.fa.get v = none) (n + 1)
    (fun s i hi h => ?_) (n + 1) 0 s1 (by omega) ⟨B1, he, fun v hv => by omega⟩).mono fun s' _ h => ⟨h.1, h.2.1, h.2.2⟩
  obtain ⟨B2, h2, h3⟩ := h
  unfold cutIfLinked
  refine NA.bind (NF.rd _ _).na fun f e1 _ => ?_
  obtain ⟨-, rfl⟩ := vrd_inv e1
  split
  · next hf =>
    refine (B2.inv.cut hf).mono fun s' _ h => ?_
    obtain ⟨I3, f3, u3, h3', fl, km, hs1, -⟩ := h
    refine ⟨⟨I3, by rw [u3]; exact B2.q, fun v hv => ?_, by rw [hs1]; exact B2.hn⟩, by rw [u3, h2], fun v hv => ?_⟩
    · rw [u3, h2] at hv; simp at hv
    · rw [f3, Vec.set_get]
      split
      · rfl
      · exact h3 v (by omega)
  · next hf =>
    refine NA.ok ⟨B2, h2, fun v hv => ?_⟩
    by_cases hvi : v = i
    · rw [hvi]; exact Decidable.not_not.mp hf
    · exact h3 v (by omega)

theorem pushEdge_na {n i : Nat} (I : Idle imax s n) : NA (pushEdge imax s i) (fun s' => Idle imax s' n) := by
  unfold pushEdge
  refine NA.bind (NF.rd _ _).na fun e _ _ => NA.bind (q_nf I.inv.cb _).na fun x _ _ => ?_
  split
  · refine NA.bind (NF.rd _ _).na fun _ _ _ => NA.bind (NF.wr _ _ _).na fun _ _ _ => NA.bind (NF.rd _ _).na fun _ _ _ =>
      NA.bind (NF.wr _ _ _).na fun im _ _ => ⟨addFlowOfEdge_nf _ _ _, fun s' e4 => ?_⟩
    obtain ⟨fl, rfl, -⟩ := addFlowOfEdge_eq e4
    exact ⟨⟨⟨I.inv.rep, I.inv.fs, I.inv.ss, I.inv.cb, I.inv.ge, I.inv.tw, I.inv.sz, I.inv.cur⟩, I.q, (fun v hv => by rw [show _ = [] from I.empty] at hv; simp at hv), I.hn⟩, I.empty, I.cut⟩
  · exact NA.ok I

theorem phase_na {n : Nat} (I : Idle imax s n) : NA (phase imax fuel s) (fun s' => Idle imax s' n) := by
  unfold phase
  have I0 : Idle imax (initialization s) n := ⟨⟨⟨I.inv.rep, I.inv.fs, I.inv.ss, I.inv.cb, I.inv.ge, I.inv.tw, I.inv.sz, fun v j hvs hv => by
      have hvs : v < s.fa.size := hvs
      have hv : s.fa.get v = some j := hv
      rw [I.inv.sz, I.hn] at hvs
      rw [I.cut v hvs] at hv
      cases hv⟩, I.q, (fun v hv => by rw [show (initialization s).uq.queue = [] from I.empty] at hv; simp at hv), I.hn⟩, I.empty, I.cut⟩
  refine NA.bind (P := fun s => Between imax s n) ?_ fun s1 _ B => NA.bind (refine_na B) fun s2 _ I2 => NA.ok ?_
  · unfold pushAllAdmissibleEdge
    refine NA.bind (NA.forRange (P := fun _ (s : Flow D) => Idle imax s n) _ (fun s i _ I => pushEdge_na I) _ 0 _ rfl I0) fun s1 _ I1 => ?_
    have I1 : Idle imax s1 n := I1
    rw [I1.hn]
    refine (NA.forRange (P := fun _ (s : Flow D) => Between imax s n ∧ (∀ v ∈ s.uq.queue, s.fa.get v = none) ∧ ∀ v, v < n + 1 → s.fa.get v = none)
      (n + 1) (fun s i hi h => ?_) (n + 1) 0 s1 (by omega) ⟨I1.toBetween, (fun v hv => by rw [I1.empty] at hv; simp at hv), I1.cut⟩).mono
      fun s' _ h => h.1
    obtain ⟨B, hr, hc⟩ := h
    refine ⟨enqueueActive_nf _ _, fun s' e => ?_⟩
    obtain ⟨uq, rfl, q1, q2⟩ := enqueueActive_eq B.q e
    have hr' : ∀ v ∈ uq.queue, s.fa.get v = none := by
      intro v hv
      rcases q2 with q2 | q2
      · rw [q2] at hv; exact hr v hv
      · rw [q2] at hv
        rcases List.mem_append.1 hv with hv | hv
        · exact hr v hv
        · have : v = i := by simpa using hv
          rw [this]; exact hc i hi
    exact ⟨⟨⟨B.inv.rep, B.inv.fs, B.inv.ss, B.inv.cb, B.inv.ge, B.inv.tw, B.inv.sz, B.inv.cur⟩, q1, fun v hv => .inl (hr' v hv), B.hn⟩, hr', hc⟩
  · exact ⟨⟨⟨I2.inv.rep, I2.inv.fs, I2.inv.ss, I2.inv.cb, I2.inv.ge, I2.inv.tw, I2.inv.sz, I2.inv.cur⟩, I2.q,
      (fun v hv => by rw [show ({ s2 with epsilon := _ } : Flow D).uq.queue = [] from I2.empty] at hv; simp at hv), I2.hn⟩, I2.empty, I2.cut⟩

theorem phases_na {n : Nat} (I : Idle imax s n) : NA (phases imax fuel s) (fun s' => Idle imax s' n) :=
  (NA.whileLoop (P := fun s => Idle imax s n) (fun _ _ => .ok) (fun _ I' _ => phase_na I') fuel s I).mono fun _ _ h => h.1

theorem partitionPoint_nf {pred : Int → Res Bool} (hp : ∀ x, NF (pred x)) : ∀ (fuel : Nat) (l r : Int), NF (partitionPoint imax pred fuel l r)
  | 0, _, _ => fun h => by cases h
  | fuel + 1, l, r => by
    unfold partitionPoint
    split
    · refine (NF.ck _ _).bind fun d _ => (NF.ck _ _).bind fun mid _ => (hp _).bind fun b _ => ?_
      split
      · exact (NF.ck _ _).bind fun _ _ => partitionPoint_nf hp fuel _ _
      · exact partitionPoint_nf hp fuel _ _
    · exact .ok

theorem descends_nf {fn : Fn D} (hf : ∀ x, NF (fn x)) (x : Int) : NF (descends imax fn x) :=
  (hf _).bind fun _ _ => (NF.ck _ _).bind fun _ _ => (hf _).bind fun _ _ => .ok

theorem minimum_nf {e : OmegaLimit D} (hf : ∀ x, NF (e.fn x)) : NF (e.minimum imax fuel) :=
  (partitionPoint_nf (descends_nf hf) _ _ _).bind fun _ _ => hf _

variable [Mul D] [Div D] [IntCast D]

theorem minCost_nf {n : Nat} (I : Idle imax s n) : NF (minCost imax fuel s) := by
  unfold minCost
  refine (phases_na I).1.bind fun s1 e1 => ?_
  have I1 := (phases_na I).2 s1 e1
  refine (NA.forRange (P := fun _ (as : D × Flow D) => ∀ k x, NF ((as.2.edges.get k).fn x)) _ (fun as i _ h => ?_) _ 0 (0, s1) rfl I1.inv.cb).1.bind
    fun r _ => ?_
  · obtain ⟨a, s⟩ := as
    unfold addEdgeMin
    refine NA.bind (NF.rd _ _).na fun e e2 _ => NA.bind (NF.rd _ _).na fun x _ _ => NA.bind (NF.wr _ _ _).na fun E e3 _ => ?_
    obtain ⟨hi, rfl⟩ := vrd_inv e2
    have hf : ∀ w : Int, NF (do let v ← (s.edges.get i).fn w; Except.ok (v - x * (w : D))) := fun w => (h i w).bind fun _ _ => .ok
    refine NA.bind (minimum_nf hf).na fun m _ _ => NA.ok fun k y => ?_
    rw [Vec.wr_ok _ hi] at e3
    cases e3
    show NF (((s.edges.set i _).get k).fn y)
    rw [Vec.set_get]
    split
    · exact hf y
    · exact h k y
  · exact .ok

theorem reverse_nf (e : OmegaLimit D) : NF (e.reverse imax) :=
  (NF.ck _ _).bind fun _ _ => (NF.ck _ _).bind fun _ _ => .ok

theorem reverse_cb {e e' : OmegaLimit D} (h : e.reverse imax = .ok e') (hf : ∀ x, NF (e.fn x)) (x : Int) : NF (e'.fn x) := by
  unfold OmegaLimit.reverse at h
  obtain ⟨l, -, h⟩ := bind_ok h
  obtain ⟨u, -, h⟩ := bind_ok h
  cases h
  exact (NF.ck _ _).bind fun _ _ => hf _

theorem reverse_ends {e e' : OmegaLimit D} (h : e.reverse imax = .ok e') : e'.i = e.j ∧ e'.j = e.i := by
  unfold OmegaLimit.reverse at h
  obtain ⟨l, -, h⟩ := bind_ok h
  obtain ⟨u, -, h⟩ := bind_ok h
  cases h
  exact ⟨rfl, rfl⟩

/-- two edges in opposite directions -/
def Pair (E : Vec (OmegaLimit D)) (k : Nat) : Prop := (E.get (2 * k + 1)).i = (E.get (2 * k)).j ∧ (E.get (2 * k + 1)).j = (E.get (2 * k)).i

theorem doubleEdges_na (L : Nat) : ∀ (k : Nat) {E : Vec (OmegaLimit D)}, (∀ k x, NF ((E.get k).fn x)) → E.size = L * 2 →
    (∀ j, k ≤ j → j < L → Pair E j) →
    NA (doubleEdges imax k E) (fun E' => (∀ k x, NF ((E'.get k).fn x)) ∧ E'.size = L * 2 ∧ ∀ j, j < L → Pair E' j)
  | 0, E, h, hs, hp => NA.ok ⟨h, hs, fun j hj => hp j (Nat.zero_le _) hj⟩
  | k + 1, E, h, hs, hp => by
    have st : ∀ {E : Vec (OmegaLimit D)} {i e}, (∀ k x, NF ((E.get k).fn x)) → (∀ x, NF (e.fn x)) → ∀ k x, NF (((E.set i e).get k).fn x) := by
      intro E i e h he k x
      rw [Vec.set_get]
      split
      · exact he x
      · exact h k x
    unfold doubleEdges
    refine NA.bind (NF.rd _ _).na fun a e1 _ => NA.bind (NF.wr _ _ _).na fun E1 e2 _ => ?_
    obtain ⟨-, rfl⟩ := vrd_inv e1
    obtain ⟨-, rfl⟩ := wr_get e2
    refine NA.bind (NF.rd _ _).na fun b e3 _ => NA.bind (NF.wr _ _ _).na fun E2 e4 _ => ?_
    obtain ⟨-, rfl⟩ := vrd_inv e3
    obtain ⟨-, rfl⟩ := wr_get e4
    refine NA.bind (NF.rd _ _).na fun c e5 _ => NA.bind (reverse_nf _).na fun r e6 _ => NA.bind (NF.wr _ _ _).na fun E3 e7 _ => ?_
    obtain ⟨-, rfl⟩ := vrd_inv e5
    obtain ⟨-, rfl⟩ := wr_get e7
    have h2 := st (i := 2 * k + 1) (e := (E.set (2 * k) (E.get (2 * k / 2))).get (2 * k))
      (st (i := 2 * k) (e := E.get (2 * k / 2)) h (h _)) (st (i := 2 * k) (e := E.get (2 * k / 2)) h (h _) _)
    refine doubleEdges_na L k (st h2 (reverse_cb e6 (h2 _))) hs fun j h1 hj => ?_
    unfold Pair
    by_cases hjk : j = k
    · subst hjk
      obtain ⟨r1, r2⟩ := reverse_ends e6
      have n1 : ¬ 2 * j = 2 * j + 1 := by omega
      simp only [Vec.set_get, if_true, if_neg n1] at r1 r2 ⊢
      exact ⟨r1, r2⟩
    · have := hp j (by omega) hj
      have n1 : ¬ 2 * j = 2 * k + 1 := by omega
      have n2 : ¬ 2 * j = 2 * k := by omega
      have n3 : ¬ 2 * j + 1 = 2 * k + 1 := by omega
      have n4 : ¬ 2 * j + 1 = 2 * k := by omega
      simp only [Vec.set_get, if_neg n1, if_neg n2, if_neg n3, if_neg n4]
      exact this

theorem xor_even (j : Nat) : (2 * j) ^^^ 1 = 2 * j + 1 := by
  apply Nat.eq_of_testBit_eq
  intro i
  cases i with
  | zero => simp
  | succ i => simp [Nat.testBit_succ, Nat.xor_div_two]

theorem xor_odd (j : Nat) : (2 * j + 1) ^^^ 1 = 2 * j := by
  rw [← xor_even, Nat.xor_assoc, Nat.xor_self, Nat.xor_zero]

theorem twin {E : Vec (OmegaLimit D)} {L : Nat} (hs : E.size = L * 2) (hp : ∀ j, j < L → Pair E j) (k : Nat) (hk : k < E.size) :
    (E.get (k ^^^ 1)).i = (E.get k).j := by
  have hd := hp (k / 2) (by omega)
  rcases Nat.mod_two_eq_zero_or_one k with h | h
  · obtain ⟨j, rfl⟩ : ∃ j, k = 2 * j := ⟨k / 2, by omega⟩
    rw [show 2 * j / 2 = j by omega] at hd
    rw [xor_even]
    exact hd.1
  · obtain ⟨j, rfl⟩ : ∃ j, k = 2 * j + 1 := ⟨k / 2, by omega⟩
    rw [show (2 * j + 1) / 2 = j by omega] at hd
    rw [xor_odd]
    exact hd.2.symm

theorem epsilonLoop_na (n : Nat) (U : Int) : NA (epsilonLoop imax n U fuel 1) (fun eps => 1 ≤ eps ∧ 2 * ((n : Int) + 1) * U ≤ eps) := by
  unfold epsilonLoop
  refine (NA.whileLoop (P := fun eps : Int => 1 ≤ eps) (fun s _ => ?_) (fun eps h _ => ?_) fuel 1 (by omega)).mono fun eps _ h => ⟨h.1, ?_⟩
  · exact NF.bind (NF.ck _ _) fun _ _ => (NF.ck _ _).bind fun _ _ => (NF.ck _ _).bind fun _ _ => .ok
  · refine NA.bind (P := fun y => y = eps * 2) ⟨NF.ck _ _, fun a e => ?_⟩ fun y _ hy => ?_
    · unfold ck at e
      split at e
      · cases e; rfl
      · cases e
    · subst hy
      rw [if_pos (by omega)]
      exact NA.ok (by omega)
  · have ckv : ∀ {a b : Int}, ck imax a = .ok b → b = a := by
      intro a b e
      unfold ck at e
      split at e
      · cases e; rfl
      · cases e
    obtain ⟨-, e⟩ := h
    obtain ⟨a, e1, e⟩ := bind_ok e
    obtain ⟨b, e2, e⟩ := bind_ok e
    obtain ⟨c, e3, e⟩ := bind_ok e
    have k1 := ckv e1
    have k2 := ckv e2
    have k3 := ckv e3
    have k4 : ¬ eps < c := by simpa using e
    subst k3 k2 k1
    push_cast at k4
    omega

theorem mk'_na (n : Nat) (M : D) (U : Int) {limits : List (OmegaLimit D)} (hcb : ∀ e ∈ limits, ∀ x, NF (e.fn x)) :
    NA (mk' imax fuel n M U limits) (fun s => Idle imax s n) := by
  unfold mk'
  refine NA.bind (epsilonLoop_na n U) fun eps _ he => ?_
  obtain ⟨h1, h2⟩ := he
  refine NA.bind (P := fun y => y = (n : Int) + 1) ⟨NF.ck _ _, fun a e => ?_⟩ fun n1 _ hn => ?_
  · unfold toInt ck at e
    split at e
    · cases e; push_cast; rfl
    · cases e
  subst hn
  rw [if_pos (by omega)]
  have hU : U ≤ (eps.tdiv 2).tdiv ((n : Int) + 1) := by
    rw [Int.tdiv_eq_ediv_of_nonneg (show 0 ≤ eps by omega), Int.tdiv_eq_ediv_of_nonneg (by omega), Int.le_ediv_iff_mul_le (by omega)]
    rw [Int.le_ediv_iff_mul_le (by omega)]
    linarith
  rw [if_pos hU]
  have h0 : ∀ k x, NF ((((Vec.ofList limits default).resize ((Vec.ofList limits default).size * 2) default).get k).fn x) := by
    intro k x
    have hd : NF ((default : OmegaLimit D).fn x) := fun h => by cases h
    unfold Vec.resize Vec.ofList
    dsimp only
    split
    · next hk =>
      have hk : k < limits.length := hk
      have : limits.getD k default = limits[k] := by simp [List.getD, hk]
      rw [this]
      exact hcb _ (List.getElem_mem _) x
    · exact hd
  refine NA.bind (doubleEdges_na limits.length limits.length h0 rfl fun j h1 h2 => absurd h2 (by omega)) fun E _ hE => ?_
  obtain ⟨hE, hs, hp⟩ := hE
  refine NA.bind (P := fun G : Vec (List Nat) => ∀ v k, k ∈ G.get v → (E.get k).i = v) ?_ fun G _ hG => NA.ok
    ⟨⟨⟨prep_init (n + 1), rfl, rfl, hE, hG, twin hs hp, rfl, fun v j _ hv => by cases hv⟩, qinv_init _, fun v hv => .inl rfl, rfl⟩, rfl, fun _ _ => rfl⟩
  refine NA.forRange (P := fun _ (G : Vec (List Nat)) => ∀ v k, k ∈ G.get v → (E.get k).i = v) E.size (fun G i _ hG => ?_) _ 0 _ (by omega)
    (fun v k hk => by simp [Vec.replicate] at hk)
  refine NA.bind (NF.rd _ _).na fun e e1 _ => NA.bind (NF.rd _ _).na fun g e2 _ => ⟨NF.wr _ _ _, fun G' e3 v k hk => ?_⟩
  obtain ⟨-, rfl⟩ := vrd_inv e1
  obtain ⟨-, rfl⟩ := vrd_inv e2
  obtain ⟨-, rfl⟩ := wr_get e3
  rw [Vec.set_get] at hk
  split at hk
  · next hv =>
    rcases List.mem_append.1 hk with hk | hk
    · rw [hv]; exact hG _ k hk
    · obtain rfl : k = i := by simpa using hk
      exact hv.symm
  · exact hG v k hk

end AHO.Flow.NoAss
