import Verif.Proof.NoAssert
/-!
# The link-cut tree whatever the values: partial correctness

`PRep h par`: the pointers of the heap represent the forest `par`, and `min` points into the subtree of its node. The operations keep this, their
assertions hold, and the nodes they return are where they should be; which of them depends on the values. `Clo h S`: following pointers from `S`
one stays in `S` and finds no root. A link which closes a cycle leads there, and then `access` does not end.
-/

namespace AHO.LCT
open AHO T
set_option linter.unusedSectionVars false

variable {D : Type} [Add D] [Zero D] [BEq D] [LT D] [LE D] [DecidableLT D] [DecidableLE D]
variable {h h' : Heap D} {par : Nat → Option Nat} {fuel x : Nat}

/-- the heap represents the forest `par` -/
def PRep (h : Heap D) (par : Nat → Option Nat) : Prop := ∃ tr, SInv h par tr ∧ MinD h

theorem prep_init (n : Nat) : PRep (Vec.replicate n (initNode : LNode D)) (fun _ => none) :=
  ⟨_, sinv_init n, fun v _ m hm => by simp [Vec.replicate, initNode] at hm⟩

theorem PRep.range (g : PRep h par) {v u} (hu : par v = some u) (hv : v < h.size) : u < h.size := by
  obtain ⟨tr, I, -⟩ := g
  exact I.range v u hu hv

theorem leftmost_head {t : T} {F : Option Nat} (hs : Shape h t F) {r : Nat} (hx : t.rt = some x) (e : leftmost h fuel x = .ok r) :
    t.io.head? = some r := by
  induction t generalizing fuel x F with
  | nil => simp at hx
  | node l y b ihl _ =>
    obtain rfl : y = x := by simpa using hx
    obtain ⟨h1, h2, h3, h4, h5, h6⟩ := hs
    cases fuel with
    | zero => cases e
    | succ fuel =>
      rw [leftmost] at e
      obtain ⟨n, e1, e⟩ := bind_ok e
      obtain ⟨-, rfl⟩ := rd_inv e1
      rw [h3] at e
      cases l with
      | nil => cases e; simp
      | node l1 z l2 =>
        have := ihl h5 rfl e
        rw [io_node, List.head?_append, this]
        rfl

theorem chain_last {par : Nat → Option Nat} : ∀ {l : List Nat} {x}, (l ++ [x]).IsChain (fun a b => par b = some a) →
    ∀ u ∈ l ++ [x], OnPath par x u
  | [], x, _, u, hu => by
    obtain rfl : u = x := by simpa using hu
    exact .refl
  | y :: l, x, hc, u, hu => by
    have hc' : (l ++ [x]).IsChain (fun a b => par b = some a) := by
      cases l with
      | nil => simp
      | cons z l => simp only [List.cons_append, List.isChain_cons_cons] at hc ⊢; exact hc.2
    rw [List.cons_append, List.mem_cons] at hu
    rcases hu with rfl | hu
    · cases l with
      | nil =>
        simp only [List.cons_append, List.nil_append, List.isChain_cons_cons] at hc
        exact .single hc.1
      | cons z l =>
        have := chain_last hc' z (by simp)
        simp only [List.cons_append, List.isChain_cons_cons] at hc
        exact this.tail hc.1
    · exact chain_last hc' u hu

theorem chain_tail {par : Nat → Option Nat} : ∀ {l : List Nat}, l.IsChain (fun a b => par b = some a) → ∀ u ∈ l.tail, par u ≠ none
  | [], _, u, hu => by simp at hu
  | [_], _, u, hu => by simp at hu
  | a :: b :: l, hc, u, hu => by
    rw [List.isChain_cons_cons] at hc
    simp only [List.tail_cons, List.mem_cons] at hu
    rcases hu with rfl | hu
    · rw [hc.1]; simp
    · exact chain_tail hc.2 u hu

theorem PRep.access (g : PRep h par) (e : LCT.access fuel h x = .ok h') : PRep h' par ∧ h'.size = h.size := by
  obtain ⟨tr, I, M⟩ := g
  obtain ⟨tr', A, f1, f2, f3, f4, f5⟩ := I.access_minD M e
  exact ⟨⟨tr', f2, f5⟩, f1⟩

/-- `find_root` -/
theorem PRep.findRoot (g : PRep h par) {r} (e : LCT.findRoot fuel h x = .ok (r, h')) :
    PRep h' par ∧ h'.size = h.size ∧ x < h.size ∧ r < h.size ∧ par r = none ∧ OnPath par x r := by
  unfold LCT.findRoot at e
  obtain ⟨h1, e1, e⟩ := bind_ok e
  obtain ⟨r1, e2, e⟩ := bind_ok e
  cases e
  obtain ⟨tr, I, M⟩ := g
  obtain ⟨tr', A, f1, f2, f3, f4, f5⟩ := I.access_minD M e1
  have hx := access_lt e1
  have L := f2.loc x (by omega)
  have hs := L.shape
  have hc := L.chain
  rw [f3] at hs hc
  have hh := leftmost_head hs rfl e2
  obtain ⟨l, hl⟩ : ∃ l, (node A x nil).io = r :: l := by
    cases hq : (node A x nil).io with
    | nil => rw [hq] at hh; cases hh
    | cons a l => rw [hq] at hh; cases hh; exact ⟨l, rfl⟩
  refine ⟨⟨tr', f2, f5⟩, f1, hx, ?_, ?_, ?_⟩
  · rw [← f1]; exact hs.lt (by rw [hl]; simp)
  · rw [hl] at f4; simpa using f4
  · rw [hl] at hc
    exact chain_reach hc x (by rw [← hl]; simp)

theorem getMinLoop_good : ∀ (fuel : Nat) {h h' : Heap D} {x : Nat} {t : T} {F : Option Nat} {ret res : D × Option Nat}, Shape h t F → MinIn h t →
    t.rt = some x → getMinLoop fuel h x ret = .ok (res, h') → PM h h' ∧ ∀ m, res.2 = some m → ret.2 = some m ∨ m ∈ t.io.tail
  | 0, _, _, _, _, _, _, _, _, _, _, e => by cases e
  | fuel + 1, h, h', x, nil, F, ret, res, hs, M, hx, e => by cases hx
  | fuel + 1, h, h', x, node l y b, F, ret, res, hs, M, hx, e => by
    obtain rfl : y = x := by simpa using hx
    rw [getMinLoop] at e
    obtain ⟨h1, e1, e⟩ := bind_ok e
    obtain ⟨n, e2, e⟩ := bind_ok e
    obtain ⟨-, rfl⟩ := rd_inv e2
    have p1 := pushDown_pm e1
    have M1 : MinIn h1 (node l y b) := M.congr fun k _ => p1.2 k
    have S1 := hs.ptrs p1.1
    obtain ⟨s1, s2, s3, s4, s5, s6⟩ := S1
    obtain ⟨m1, m2, m3⟩ := M1
    have hb : ∀ m, m ∈ b.io → m ∈ (node l y b).io.tail := by
      intro m hm
      rw [io_node]
      cases hq : l.io with
      | nil => simpa using hm
      | cons a l => simp [hm]
    have key : ∀ ret1 : D × Option Nat, (match (h1.get y).ch0 with
        | none => Except.ok (ret1, h1)
        | some c => getMinLoop fuel h1 c (if (h1.get y).val ≤ ret1.1 then ((h1.get y).val, some y) else ret1)) = .ok (res, h') →
        (∀ m, ret1.2 = some m → ret.2 = some m ∨ m ∈ (node l y b).io.tail) →
        PM h h' ∧ ∀ m, res.2 = some m → ret.2 = some m ∨ m ∈ (node l y b).io.tail := by
      intro ret1 e hr
      rw [s3] at e
      cases l with
      | nil => cases e; exact ⟨p1, hr⟩
      | node l1 z l2 =>
        obtain ⟨q1, q2⟩ := getMinLoop_good fuel s5 m2 rfl e
        have tl : (node (node l1 z l2) y b).io.tail = (node l1 z l2).io.tail ++ y :: b.io := by
          rw [io_node]
          cases hq : (node l1 z l2).io with
          | nil => simp at hq
          | cons a l => simp
        refine ⟨p1.trans q1, fun m hm => ?_⟩
        rcases q2 m hm with q | q
        · split at q
          · cases q
            exact .inr (by rw [tl]; simp)
          · exact hr m q
        · exact .inr (by rw [tl]; exact List.mem_append_left _ q)
    cases hc : (h1.get y).ch1 with
    | none =>
      simp only [hc, ok_bind] at e
      exact key _ e fun m hm => .inl hm
    | some c =>
      simp only [hc] at e
      obtain ⟨nc, e3, e⟩ := bind_ok e
      obtain ⟨-, rfl⟩ := rd_inv e3
      simp only [ok_bind] at e
      refine key _ e fun m hm => ?_
      split at hm
      · rw [s4] at hc
        cases b with
        | nil => cases hc
        | node b1 z b2 =>
          cases hc
          exact .inr (hb m (m3.1 m hm))
      · exact .inl hm

/-- `get_min_wtrbnr` -/
theorem PRep.getMin (g : PRep h par) (hp : par x ≠ none) {v m2} (e : LCT.getMin fuel h x = .ok ((v, m2), h')) :
    PRep h' par ∧ h'.size = h.size ∧ ∀ m, m2 = some m → m < h.size ∧ par m ≠ none ∧ OnPath par x m := by
  unfold LCT.getMin at e
  obtain ⟨h1, e1, e⟩ := bind_ok e
  obtain ⟨n, e2, e⟩ := bind_ok e
  obtain ⟨tr, I, M⟩ := g
  obtain ⟨tr', A, f1, f2, f3, f4, f5⟩ := I.access_minD M e1
  have hx := access_lt e1
  have L := f2.loc x (by omega)
  have hs := L.shape
  have hc := L.chain
  have Mx := f2.minIn f5 (v := x) (by omega)
  rw [f3] at hs hc Mx
  obtain ⟨q1, q2⟩ := getMinLoop_good fuel hs Mx rfl e
  refine ⟨⟨tr', f2.ptrs q1.1, q1.minD f5⟩, by rw [q1.1.1, f1], fun m hm => ?_⟩
  have hmem : m ∈ (node A x nil).io ∧ par m ≠ none := by
    rcases q2 m hm with q | q
    · cases q
      exact ⟨by simp, hp⟩
    · exact ⟨List.mem_of_mem_tail q, chain_tail hc m q⟩
  refine ⟨by rw [← f1]; exact hs.lt hmem.1, hmem.2, ?_⟩
  have hc' : (A.io ++ [x]).IsChain (fun a b => par b = some a) := by simpa using hc
  exact chain_last hc' m (by simpa using hmem.1)

theorem PRep.getVal (g : PRep h par) {v} (e : LCT.getVal fuel h x = .ok (v, h')) : PRep h' par ∧ h'.size = h.size := by
  unfold LCT.getVal at e
  obtain ⟨r, -, e⟩ := bind_ok e
  cases r with
  | true =>
    simp only [Bool.not_true, Bool.false_eq_true, if_false, ok_bind] at e
    obtain ⟨n1, -, e⟩ := bind_ok e
    cases e
    exact ⟨g, rfl⟩
  | false =>
    simp only [Bool.not_false, if_true] at e
    obtain ⟨h2, e2, e⟩ := bind_ok e
    obtain ⟨n1, -, e⟩ := bind_ok e
    cases e
    exact g.access e2

theorem PRep.pm (g : PRep h par) (p : PM h h') : PRep h' par := by
  obtain ⟨tr, I, M⟩ := g
  exact ⟨tr, I.ptrs p.1, p.minD M⟩

theorem PRep.pushUp (g : PRep h par) (e : LCT.pushUp h x = .ok h') : PRep h' par := by
  obtain ⟨tr, I, M⟩ := g
  have I' := I.ptrs (pushUp_ptrs e)
  refine ⟨tr, I', I'.minD fun v hv => ?_⟩
  have hv' : v < h.size := by rw [← (pushUp_ptrs e).1]; exact hv
  exact pushUp_minIn (I.loc v hv').shape e (I.minIn M hv')

theorem PRep.addVal (g : PRep h par) {d : D} (e : addValWayToRoot fuel h x d = .ok h') : PRep h' par ∧ h'.size = h.size := by
  unfold addValWayToRoot at e
  obtain ⟨h2, e2, e⟩ := bind_ok e
  obtain ⟨g2, s2⟩ := g.access e2
  have p := updateAdd_pm e
  exact ⟨g2.pm p, by rw [p.1.1, s2]⟩

theorem PRep.setVal (g : PRep h par) {c : D} (e : LCT.setVal fuel h x c = .ok h') : PRep h' par ∧ h'.size = h.size := by
  unfold LCT.setVal at e
  obtain ⟨r, -, e⟩ := bind_ok e
  have fin : ∀ {h2 : Heap D}, PRep h2 par → (do
      let n ← h2.rd x
      let h ← h2.wr x { n with val := c }
      LCT.pushUp h x) = Except.ok (ε := Err) h' → PRep h' par ∧ h'.size = h2.size := by
    intro h2 g e
    obtain ⟨n1, r1, e⟩ := bind_ok e
    obtain ⟨hx, rfl⟩ := rd_inv r1
    obtain ⟨h3, r2, e⟩ := bind_ok e
    have p : PM h2 h3 := PM.wr hx r2 ⟨rfl, rfl, rfl⟩ rfl
    exact ⟨(g.pm p).pushUp e, by rw [(pushUp_ptrs e).1, p.1.1]⟩
  cases r with
  | true =>
    simp only [Bool.not_true, Bool.false_eq_true, if_false, ok_bind] at e
    exact fin g e
  | false =>
    simp only [Bool.not_false, if_true] at e
    obtain ⟨h2, e2, e⟩ := bind_ok e
    obtain ⟨g2, s2⟩ := g.access e2
    obtain ⟨g3, s3⟩ := fin g2 e
    exact ⟨g3, by rw [s3, s2]⟩

/-- `cut` of a node with a parent: the assertion holds -/
theorem PRep.cut (g : PRep h par) (hp : par x ≠ none) :
    NA (LCT.cut fuel h x) (fun h' => PRep h' (Function.update par x none) ∧ h'.size = h.size) := by
  obtain ⟨tr, I, M⟩ := g
  refine ⟨?_, fun h' e => ?_⟩
  · unfold LCT.cut
    refine (access_nf _ _ _).bind fun h1 e1 => (NF.rd _ _).bind fun n e2 => ?_
    obtain ⟨-, rfl⟩ := rd_inv e2
    obtain ⟨tr', A, f1, f2, f3, f4, f5⟩ := I.access_minD M e1
    have hx := access_lt e1
    have hs := (f2.loc x (by omega)).shape
    rw [f3] at hs
    cases hc : (h1.get x).ch0 with
    | none =>
      rw [hs.2.2.1] at hc
      cases A with
      | nil => exact absurd (by simpa using f4) hp
      | node a y b => cases hc
    | some c => exact (NF.rd _ _).bind fun _ _ => (NF.wr _ _ _).bind fun _ _ => (NF.rd _ _).bind fun _ _ => (NF.wr _ _ _).bind fun _ _ => pushUp_nf _ _
  · obtain ⟨k, ec⟩ := er_inv (cutC_er fuel h x) e
    obtain ⟨hx, -, tr', s1, I', -⟩ := I.cutOp ec
    refine ⟨⟨tr', I', ?_⟩, s1⟩
    unfold LCT.cut at e
    obtain ⟨h1, e1, e⟩ := bind_ok e
    obtain ⟨n, e2, e⟩ := bind_ok e
    obtain ⟨-, rfl⟩ := rd_inv e2
    obtain ⟨tr1, A, f1, f2, f3, f4, f5⟩ := I.access_minD M e1
    have L := f2.loc x (by omega)
    have hs := L.shape
    have hn := L.nodup
    rw [f3] at hs hn
    cases hc : (h1.get x).ch0 with
    | none => simp only [hc] at e; cases e
    | some c =>
      simp only [hc] at e
      obtain ⟨nc, e3, e⟩ := bind_ok e
      obtain ⟨hc1, rfl⟩ := rd_inv e3
      obtain ⟨h2, e4, e⟩ := bind_ok e
      obtain ⟨n2, e5, e⟩ := bind_ok e
      obtain ⟨hx2, rfl⟩ := rd_inv e5
      obtain ⟨h3, e6, e⟩ := bind_ok e
      rw [Vec.wr_ok _ hc1] at e4
      cases e4
      rw [Vec.wr_ok _ hx2] at e6
      cases e6
      have hA : A.rt = some c := by rw [← hs.2.2.1]; exact hc
      have hcx : c ≠ x := by
        rintro rfl
        exact (List.nodup_append.1 hn).2.2 c (rt_mem hA) c (by simp) rfl
      refine minD_change f5 ?_ (fun v hv => f2.no_kid (by omega) f3 hv) (fun v hv d hk => ?_) (fun v => ?_) (fun v d hv hk => f2.kid_lt hv hk)
        (fun d hk => ?_) e
      · rfl
      · unfold Kid at *
        by_cases hvc : v = c
        · subst hvc
          simpa [Vec.set_get, hv] using hk
        · simpa [Vec.set_get, hv, hvc] using hk
      · by_cases hvx : v = x
        · subst hvx
          simp [Vec.set_get, Ne.symm hcx]
        · by_cases hvc : v = c
          · subst hvc; simp [Vec.set_get, hvx]
          · simp [Vec.set_get, hvx, hvc]
      · unfold Kid at hk
        have h4 := hs.2.2.2.1
        simp [Vec.set_get, Ne.symm hcx, h4] at hk

theorem splay_lt (e : splay fuel h x = .ok h') : x < h.size := by
  obtain ⟨k, e⟩ := er_inv (splayC_er fuel h x) e
  exact splayC_lt e

/-- splaying a root of the forest -/
theorem SInv.splayRoot {tr : Nat → T} (I : SInv h par tr) (hp : par x = none) (e : LCT.splay fuel h x = .ok h') :
    ∃ tr' b, h'.size = h.size ∧ SInv h' par tr' ∧ tr' x = node nil x b ∧ (h'.get x).fa = none := by
  have hx := splay_lt e
  obtain ⟨k, e'⟩ := er_inv (splayC_er fuel h x) e
  obtain ⟨a0, b0, c, hfoc⟩ := exists_focus (tr x) x (I.loc x hx).mem
  obtain ⟨tr1, a, b, -, f2, I1, e4, -⟩ := I.splay hx hfoc e'
  have L := I1.loc x (by omega)
  have hch := L.chain
  have hsh := L.shape
  rw [e4] at hch hsh
  have ha : a = nil := by
    rw [← io_eq_nil]
    by_contra hne
    rw [io_node, List.isChain_append] at hch
    obtain ⟨z, hz⟩ : ∃ z, a.io.getLast? = some z := by
      cases hh : a.io.getLast? with
      | none => exact absurd (List.getLast?_eq_none_iff.1 hh) hne
      | some z => exact ⟨z, rfl⟩
    have := hch.2.2 z hz x (by simp)
    rw [hp] at this; simp at this
  subst ha
  refine ⟨tr1, b, f2, I1, e4, ?_⟩
  rw [hsh.2.1]
  simpa using hp

/-- following pointers one does not leave `S` -/
def Clo (h : Heap D) (S : Nat → Prop) : Prop := ∀ v, S v → (∃ g, S g ∧ (h.get v).fa = some g) ∧ ∀ c, Kid h v c → S c

theorem shape_fa {t : T} {F : Option Nat} (hs : Shape h t F) {v} (hv : v ∈ t.io) :
    (t.rt = some v ∧ (h.get v).fa = F) ∨ ∃ g ∈ t.io, (h.get v).fa = some g := by
  induction t generalizing F with
  | nil => simp at hv
  | node l y r ihl ihr =>
    obtain ⟨h1, h2, h3, h4, h5, h6⟩ := hs
    simp only [io_node, List.mem_append, List.mem_cons] at hv
    rcases hv with hv | rfl | hv
    · rcases ihl h5 hv with ⟨-, q⟩ | ⟨g, q1, q2⟩
      · exact .inr ⟨y, by simp, q⟩
      · exact .inr ⟨g, by simp [q1], q2⟩
    · exact .inl ⟨rfl, h2⟩
    · rcases ihr h6 hv with ⟨-, q⟩ | ⟨g, q1, q2⟩
      · exact .inr ⟨y, by simp, q⟩
      · exact .inr ⟨g, by simp [q1], q2⟩

theorem onPath_root {v u : Nat} (hp : par x = none) (h1 : OnPath par v u) (h2 : OnPath par v x) : OnPath par u x := by
  rcases onPath_linear h1 h2 with q | q
  · exact q
  · rcases q.cases_head with rfl | ⟨c, hc, -⟩
    · exact .refl
    · rw [Up, hp] at hc; cases hc

/-- `set_fa` of a node without a parent: the assertion holds -/
theorem PRep.setFa (g : PRep h par) (hp : par x = none) {f} (hf : f < h.size) :
    NA (LCT.setFa fuel h x f) (fun h' => h'.size = h.size ∧
      ((¬ OnPath par f x ∧ PRep h' (Function.update par x (some f))) ∨ ∃ S : Nat → Prop, S x ∧ Clo h' S)) := by
  obtain ⟨tr, I, M⟩ := g
  refine ⟨?_, fun h' e => ?_⟩
  · unfold LCT.setFa
    refine (splay_nf _ _ _).bind fun h1 e1 => (NF.rd _ _).bind fun n e2 => ?_
    obtain ⟨-, rfl⟩ := rd_inv e2
    obtain ⟨tr1, b, f1, f2, f3, f4⟩ := I.splayRoot hp e1
    rw [if_pos f4]
    exact NF.wr _ _ _
  · have e0 := e
    unfold LCT.setFa at e
    obtain ⟨h1, e1, e⟩ := bind_ok e
    obtain ⟨n, e2, e⟩ := bind_ok e
    obtain ⟨hx1, rfl⟩ := rd_inv e2
    have hx := splay_lt e1
    obtain ⟨tr1, b, f1, f2, f3, f4⟩ := I.splayRoot hp e1
    have M1 := I.splay_minD M hx e1
    rw [if_pos f4, Vec.wr_ok _ hx1] at e
    cases e
    refine ⟨f1, ?_⟩
    by_cases hr : OnPath par f x
    · refine .inr ⟨fun v => v < h.size ∧ OnPath par v x, ⟨hx, .refl⟩, fun v hv => ?_⟩
      obtain ⟨hv, ho⟩ := hv
      have L := f2.loc v (by omega)
      have hs := L.shape
      have hc := L.chain
      obtain ⟨z, l, hl⟩ : ∃ z l, (tr1 v).io = z :: l := by
        cases hq : (tr1 v).io with
        | nil => have := L.mem; rw [hq] at this; simp at this
        | cons z l => exact ⟨z, l, rfl⟩
      have hzx : OnPath par z x := by
        have hc' := hc
        rw [hl] at hc'
        exact onPath_root hp (chain_reach hc' v (by rw [← hl]; exact L.mem)) ho
      have hmem : ∀ u ∈ (tr1 v).io, u < h.size ∧ OnPath par u x := fun u hu => by
        have hc' := hc
        rw [hl] at hc'
        exact ⟨by rw [← f1]; exact hs.lt hu, (chain_reach hc' u (by rw [← hl]; exact hu)).trans hzx⟩
      refine ⟨?_, fun c hk => ?_⟩
      · by_cases hvx : v = x
        · subst hvx
          exact ⟨f, ⟨hf, hr⟩, by simp⟩
        · have hget : ((h1.set x { h1.get x with fa := some f }).get v).fa = (h1.get v).fa := by simp [Vec.set_get, hvx]
          rw [hget]
          rcases shape_fa hs L.mem with ⟨q1, q2⟩ | ⟨u, q1, q2⟩
          · rw [hl] at q2
            simp only [List.head?_cons, Option.bind_some] at q2
            cases hz : par z with
            | none =>
              have hzx' : z = x := by
                rcases hzx.cases_head with rfl | ⟨c, hc, -⟩
                · rfl
                · rw [Up, hz] at hc; cases hc
              subst hzx'
              have := L.same z (by rw [hl]; simp)
              rw [← this, f3] at q1
              exact absurd (by simpa using q1.symm) hvx
            | some u =>
              rw [hz] at q2
              refine ⟨u, ⟨?_, ?_⟩, q2⟩
              · have := f2.range z u hz (hs.lt (by rw [hl]; simp)); omega
              · exact onPath_root hp (.single hz) hzx
          · exact ⟨u, hmem u q1, q2⟩
      · refine hmem c (child_mem' hs L.mem ?_)
        unfold Kid at hk
        by_cases hvx : v = x
        · subst hvx; simpa [Vec.set_get] using hk
        · simpa [Vec.set_get, hvx] using hk
    · obtain ⟨k, ec⟩ := er_inv (setFaC_er fuel h x f) e0
      obtain ⟨tr', b', -, I', -⟩ := I.setFa hx hf hp hr ec
      refine .inl ⟨hr, tr', I', fun v hv m hm => ?_⟩
      have kid : ∀ {v c}, Kid h1 v c → Kid (h1.set x { h1.get x with fa := some f }) v c := by
        intro v c hk
        unfold Kid at *
        by_cases hvx : v = x
        · subst hvx; simpa [Vec.set_get] using hk
        · simpa [Vec.set_get, hvx] using hk
      have lift : ∀ v m, Desc h1 v m → Desc (h1.set x { h1.get x with fa := some f }) v m := by
        intro v m hd
        induction hd with
        | refl => exact .refl
        | tail _ hk ih => exact ih.tail (kid hk)
      have hd : Desc h1 v m := by
        refine M1 v hv m ?_
        by_cases hvx : v = x
        · subst hvx; simpa [Vec.set_get] using hm
        · simpa [Vec.set_get, hvx] using hm
      exact lift _ _ hd

/-! ## A closed set of nodes without a root -/

variable {S : Nat → Prop}

theorem Clo.ptrs (C : Clo h S) (p : Ptrs h h') : Clo h' S := fun v hv => by
  obtain ⟨⟨g, g1, g2⟩, c⟩ := C v hv
  refine ⟨⟨g, g1, by rw [(p.2 v).1]; exact g2⟩, fun c' hk => c c' ?_⟩
  unfold Kid at *
  rw [(p.2 v).2.1, (p.2 v).2.2] at hk
  exact hk

theorem Clo.setc (C : Clo h S) {p : Option Nat} {d : Bool} (hx : S x) (hp : ∀ c, p = some c → S c) (e : LCT.setc h x p d = .ok h') : Clo h' S := by
  have hb : x < h.size ∧ ∀ c, p = some c → c < h.size := by
    unfold LCT.setc at e
    obtain ⟨n, e1, e⟩ := bind_ok e
    obtain ⟨h0, -⟩ := rd_inv e1
    refine ⟨h0, fun c hc => ?_⟩
    subst hc
    obtain ⟨h2, e2, e⟩ := bind_ok e
    obtain ⟨n2, e3, e⟩ := bind_ok e
    rw [Vec.wr_ok _ h0] at e2
    cases e2
    exact (rd_inv e3).1
  obtain ⟨h2, q1, q2, q3, q4, q5⟩ := Mem.setc_spec h x p d hb.1 hb.2
  rw [e] at q1
  cases q1
  intro v hv
  obtain ⟨⟨g, g1, g2⟩, c⟩ := C v hv
  refine ⟨?_, fun c' hk => ?_⟩
  · rw [q3]
    split
    · exact ⟨x, hx, rfl⟩
    · exact ⟨g, g1, g2⟩
  · have : ∃ d', LNode.ch (h'.get v) d' = some c' := by
      rcases hk with hk | hk
      · exact ⟨false, hk⟩
      · exact ⟨true, hk⟩
    obtain ⟨d', hd'⟩ := this
    rw [q4] at hd'
    split at hd'
    · exact hp c' hd'
    · refine c c' ?_
      cases d' with
      | false => exact .inl hd'
      | true => exact .inr hd'

theorem Clo.ch (C : Clo h S) {v c : Nat} {d : Bool} (hv : S v) (hc : LNode.ch (h.get v) d = some c) : S c := by
  refine (C v hv).2 c ?_
  cases d with
  | false => exact .inl hc
  | true => exact .inr hc

theorem Clo.rot (C : Clo h S) (hx : S x) (e : LCT.rot h x = .ok h') : Clo h' S := by
  unfold LCT.rot at e
  obtain ⟨nx, e1, e⟩ := bind_ok e
  obtain ⟨hxs, rfl⟩ := rd_inv e1
  obtain ⟨⟨f, hf, hfx⟩, -⟩ := C x hx
  rw [hfx] at e
  obtain ⟨f', e2, e⟩ := bind_ok e
  cases e2
  obtain ⟨nf, e3, e⟩ := bind_ok e
  obtain ⟨-, rfl⟩ := rd_inv e3
  obtain ⟨⟨g, hg, hgf⟩, -⟩ := C f hf
  rw [hgf] at e
  obtain ⟨c, -, e⟩ := bind_ok e
  obtain ⟨cc, -, e⟩ := bind_ok e
  obtain ⟨h1, e4, e⟩ := bind_ok e
  obtain ⟨h2, e5, e⟩ := bind_ok e
  have C1 := C.setc hf (fun c' hc' => C.ch hx hc') e4
  have C2 := C1.setc hx (fun c' hc' => by cases hc'; exact hf) e5
  obtain ⟨ng, e6, e⟩ := bind_ok e
  split at e
  · obtain ⟨h3, e7, e⟩ := bind_ok e
    exact (C2.setc hg (fun c' hc' => by cases hc'; exact hx) e7).ptrs (pushUp_ptrs e)
  · obtain ⟨n, e7, e⟩ := bind_ok e
    obtain ⟨hx2, rfl⟩ := rd_inv e7
    obtain ⟨h3, e8, e⟩ := bind_ok e
    rw [Vec.wr_ok _ hx2] at e8
    cases e8
    refine Clo.ptrs (fun v hv => ?_) (pushUp_ptrs e)
    by_cases hvx : v = x
    · subst hvx
      refine ⟨⟨g, hg, by simp⟩, fun c' hk => (C2 v hv).2 c' ?_⟩
      unfold Kid at *
      simpa [Vec.set_get] using hk
    · obtain ⟨⟨u, u1, u2⟩, w⟩ := C2 v hv
      refine ⟨⟨u, u1, by simpa [Vec.set_get, hvx] using u2⟩, fun c' hk => w c' ?_⟩
      unfold Kid at *
      simpa [Vec.set_get, hvx] using hk

theorem Clo.splayStep (C : Clo h S) (hx : S x) (e : LCT.splayStep h x = .ok h') : Clo h' S := by
  unfold LCT.splayStep at e
  obtain ⟨n, e1, e⟩ := bind_ok e
  obtain ⟨hxs, rfl⟩ := rd_inv e1
  obtain ⟨⟨f, hf, hfx⟩, -⟩ := C x hx
  rw [hfx] at e
  obtain ⟨f', e2, e⟩ := bind_ok e
  cases e2
  obtain ⟨fr, -, e⟩ := bind_ok e
  cases fr with
  | true =>
    simp only [Bool.not_true, Bool.false_eq_true, if_false, ok_bind] at e
    exact C.rot hx e
  | false =>
    simp only [Bool.not_false, if_true] at e
    obtain ⟨dx, -, e⟩ := bind_ok e
    obtain ⟨df, -, e⟩ := bind_ok e
    split at e
    · obtain ⟨h1, e3, e⟩ := bind_ok e
      exact (C.rot hf e3).rot hx e
    · obtain ⟨h1, e3, e⟩ := bind_ok e
      exact (C.rot hx e3).rot hx e

theorem whileLoop_keeps {σ : Type} {P : σ → Prop} {cond : σ → Res Bool} {body : σ → Res σ} (hb : ∀ s s', P s → body s = .ok s' → P s') :
    ∀ (fuel : Nat) {s s' : σ}, P s → whileLoop cond body fuel s = .ok s' → P s'
  | 0, _, _, _, e => by cases e
  | fuel + 1, s, s', h, e => by
    unfold whileLoop at e
    obtain ⟨b, -, e⟩ := bind_ok e
    cases b with
    | true =>
      obtain ⟨s1, e1, e⟩ := bind_ok e
      exact whileLoop_keeps hb fuel (hb _ _ h e1) e
    | false => cases e; exact h

theorem Clo.splay (C : Clo h S) (hx : S x) (e : LCT.splay fuel h x = .ok h') : Clo h' S := by
  unfold LCT.splay at e
  obtain ⟨h1, e1, e⟩ := bind_ok e
  obtain ⟨h2, e2, e⟩ := bind_ok e
  exact (whileLoop_keeps (P := fun h => Clo h S) (fun _ _ C e => C.splayStep hx e) _ (C.ptrs (pushDownFromRoot_pm _ e1).1) e2).ptrs (pushUp_ptrs e)

theorem Clo.accessLoop {fuel0 : Nat} : ∀ (fuel : Nat) {h h' : Heap D} {p : Nat} {q : Option Nat}, Clo h S → S p → (∀ c, q = some c → S c) →
    LCT.accessLoop fuel0 fuel h (some p) q ≠ .ok h'
  | 0, _, _, _, _, _, _, _ => fun e => by cases e
  | fuel + 1, h, h', p, q, C, hp, hq => fun e => by
    rw [LCT.accessLoop] at e
    obtain ⟨h1, e1, e⟩ := bind_ok e
    obtain ⟨h2, e2, e⟩ := bind_ok e
    obtain ⟨h3, e3, e⟩ := bind_ok e
    obtain ⟨n, e4, e⟩ := bind_ok e
    obtain ⟨-, rfl⟩ := rd_inv e4
    have C3 := ((C.splay hp e1).setc hp hq e2).ptrs (pushUp_ptrs e3)
    obtain ⟨⟨g, hg, hgp⟩, -⟩ := C3 p hp
    rw [hgp] at e
    exact Clo.accessLoop fuel C3 hg (fun c hc => by cases hc; exact hp) e

/-- after a link which closes a cycle `find_root` does not end -/
theorem Clo.findRoot (C : Clo h S) (hx : S x) {r} : LCT.findRoot fuel h x ≠ .ok r := fun e => by
  unfold LCT.findRoot at e
  obtain ⟨h1, e1, e⟩ := bind_ok e
  unfold LCT.access at e1
  obtain ⟨h2, e2, -⟩ := bind_ok e1
  exact C.accessLoop _ hx (fun c hc => by cases hc) e2

theorem onPath_cut {a m : Nat} (h : OnPath par a m) : OnPath (Function.update par m none) a m := by
  induction h using Relation.ReflTransGen.head_induction_on with
  | refl => exact .refl
  | @head a c hac _ ih =>
    by_cases ham : a = m
    · subst ham; exact .refl
    · exact .head (show Function.update par m none a = some c by rw [Function.update_of_ne ham]; exact hac) ih

/-! ## A node which is linked twice -/

theorem PRep.acyc (g : PRep h par) {a m : Nat} (h1 : OnPath par a m) (h2 : par m = some a) : False := by
  obtain ⟨tr, I, -⟩ := g
  exact I.acyc a (Relation.TransGen.tail' h1 h2)

/-- after `add_val_way_to_root` the node is the root of its auxiliary tree, which contains the root of the tree -/
theorem PRep.addVal_top (g : PRep h par) {d : D} (e : addValWayToRoot fuel h x d = .ok h') : (h'.get x).fa = none := by
  unfold addValWayToRoot at e
  obtain ⟨h1, e1, e⟩ := bind_ok e
  obtain ⟨tr, I, M⟩ := g
  obtain ⟨tr', A, f1, f2, f3, f4, f5⟩ := I.access_minD M e1
  have hx := access_lt e1
  have hs := (f2.loc x (by omega)).shape
  rw [f3, f4] at hs
  rw [((updateAdd_pm e).1.2 x).1]
  exact hs.2.1

theorem isRoot_top (hf : (h.get x).fa = none) {b} (e : isRoot h x = .ok b) : b = true := by
  unfold isRoot at e
  obtain ⟨n, e1, e⟩ := bind_ok e
  obtain ⟨-, rfl⟩ := rd_inv e1
  rw [hf] at e
  cases e; rfl

theorem setVal_top (hf : (h.get x).fa = none) {c : D} (e : LCT.setVal fuel h x c = .ok h') : (h'.get x).fa = none := by
  unfold LCT.setVal at e
  obtain ⟨r, e1, e⟩ := bind_ok e
  obtain rfl := isRoot_top hf e1
  simp only [Bool.not_true, Bool.false_eq_true, if_false, ok_bind] at e
  obtain ⟨n, e2, e⟩ := bind_ok e
  obtain ⟨hx, rfl⟩ := rd_inv e2
  obtain ⟨h1, e3, e⟩ := bind_ok e
  have p : PM h h1 := PM.wr hx e3 ⟨rfl, rfl, rfl⟩ rfl
  rw [((pushUp_ptrs e).2 x).1, (p.1.2 x).1, hf]

theorem splay_top (hf : (h.get x).fa = none) (e : LCT.splay fuel h x = .ok h') : Ptrs h h' := by
  unfold LCT.splay at e
  obtain ⟨h1, e1, e⟩ := bind_ok e
  obtain ⟨h2, e2, e⟩ := bind_ok e
  have p1 := (pushDownFromRoot_pm _ e1).1
  have hf1 : (h1.get x).fa = none := by rw [(p1.2 x).1, hf]
  cases fuel with
  | zero => cases e2
  | succ fuel =>
    unfold whileLoop at e2
    obtain ⟨b, e3, e2⟩ := bind_ok e2
    obtain ⟨r, e4, e3⟩ := bind_ok e3
    obtain rfl := isRoot_top hf1 e4
    cases e3
    cases e2
    exact p1.trans (pushUp_ptrs e)

/-- `set_fa` with the parent of the node, when the node is the root of its auxiliary tree: the assertion does not notice, and there is a cycle of
pointers -/
theorem PRep.setFa_twice (g : PRep h par) (hf : (h.get x).fa = none) {f} (hp : par x = some f) :
    NA (LCT.setFa fuel h x f) (fun h' => ∃ S : Nat → Prop, S x ∧ Clo h' S) := by
  obtain ⟨tr, I, M⟩ := g
  refine ⟨?_, fun h' e => ?_⟩
  · unfold LCT.setFa
    refine (splay_nf _ _ _).bind fun h1 e1 => (NF.rd _ _).bind fun n e2 => ?_
    obtain ⟨-, rfl⟩ := rd_inv e2
    rw [if_pos (by rw [((splay_top hf e1).2 x).1, hf])]
    exact NF.wr _ _ _
  · unfold LCT.setFa at e
    obtain ⟨h1, e1, e⟩ := bind_ok e
    obtain ⟨n, e2, e⟩ := bind_ok e
    obtain ⟨hx1, rfl⟩ := rd_inv e2
    have pt := splay_top hf e1
    have hf1 : (h1.get x).fa = none := by rw [(pt.2 x).1, hf]
    have f2 := I.ptrs pt
    rw [if_pos hf1, Vec.wr_ok _ hx1] at e
    cases e
    have Lx := f2.loc x hx1
    obtain ⟨r, lx, hlx⟩ : ∃ z l, (tr x).io = z :: l := by
      cases hq : (tr x).io with
      | nil => have := Lx.mem; rw [hq] at this; simp at this
      | cons z l => exact ⟨z, l, rfl⟩
    obtain ⟨hrt, hr0⟩ : (tr x).rt = some x ∧ par r = none := by
      rcases shape_fa Lx.shape Lx.mem with ⟨q1, q2⟩ | ⟨u, -, q2⟩
      · rw [hlx, hf1] at q2
        exact ⟨q1, by simpa using q2.symm⟩
      · rw [hf1] at q2; cases q2
    have hxr : OnPath par x r := by
      have hc := Lx.chain
      rw [hlx] at hc
      exact chain_reach hc x (by rw [← hlx]; exact Lx.mem)
    have hfr : OnPath par f r := onPath_root hr0 (.single hp) hxr
    refine ⟨fun v => v < h1.size ∧ OnPath par v r, ⟨hx1, hxr⟩, fun v hv => ?_⟩
    obtain ⟨hv, ho⟩ := hv
    have L := f2.loc v hv
    have hs := L.shape
    have hc := L.chain
    obtain ⟨z, l, hl⟩ : ∃ z l, (tr v).io = z :: l := by
      cases hq : (tr v).io with
      | nil => have := L.mem; rw [hq] at this; simp at this
      | cons z l => exact ⟨z, l, rfl⟩
    have hzr : OnPath par z r := by
      have hc' := hc
      rw [hl] at hc'
      exact onPath_root hr0 (chain_reach hc' v (by rw [← hl]; exact L.mem)) ho
    have hmem : ∀ u ∈ (tr v).io, u < h1.size ∧ OnPath par u r := fun u hu => by
      have hc' := hc
      rw [hl] at hc'
      exact ⟨hs.lt hu, (chain_reach hc' u (by rw [← hl]; exact hu)).trans hzr⟩
    refine ⟨?_, fun c hk => ?_⟩
    · by_cases hvx : v = x
      · subst hvx
        exact ⟨f, ⟨f2.range v f hp hx1, hfr⟩, by simp⟩
      · have hget : ((h1.set x { h1.get x with fa := some f }).get v).fa = (h1.get v).fa := by simp [Vec.set_get, hvx]
        rw [hget]
        rcases shape_fa hs L.mem with ⟨q1, q2⟩ | ⟨u, q1, q2⟩
        · rw [hl] at q2
          simp only [List.head?_cons, Option.bind_some] at q2
          cases hz : par z with
          | none =>
            have hzr' : z = r := by
              rcases hzr.cases_head with rfl | ⟨c, hc, -⟩
              · rfl
              · rw [Up, hz] at hc; cases hc
            subst hzr'
            have e1 := L.same z (by rw [hl]; simp)
            have e2 := Lx.same z (by rw [hlx]; simp)
            rw [← e1, e2, hrt] at q1
            exact absurd (Option.some.inj q1).symm hvx
          | some u =>
            rw [hz] at q2
            exact ⟨u, ⟨f2.range z u hz (hs.lt (by rw [hl]; simp)), onPath_root hr0 (.single hz) hzr⟩, q2⟩
        · exact ⟨u, hmem u q1, q2⟩
    · refine hmem c (child_mem' hs L.mem ?_)
      unfold Kid at hk
      by_cases hvx : v = x
      · subst hvx; simpa [Vec.set_get] using hk
      · simpa [Vec.set_get, hvx] using hk

end AHO.LCT
