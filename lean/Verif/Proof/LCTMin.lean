import Verif.Proof.FlowAmort
import Verif.Proof.Safe
/-!
# Which node `min` points at, whatever the values

The comparisons decide which node of its auxiliary subtree the field `min` of a node points at; that it points into that subtree does not depend
on them. Nothing is assumed about the values here.
-/

namespace AHO.LCT
open AHO T
set_option linter.unusedSectionVars false

theorem er_inv {γ α : Type} {x : Res (γ × α)} {y : Res α} (h : Er x y) {a : α} (e : y = .ok a) : ∃ k, x = .ok (k, a) := by
  cases x with
  | error e' => unfold Er at h; rw [e] at h; cases h
  | ok p =>
    unfold Er at h
    rw [e] at h
    cases h
    exact ⟨p.1, rfl⟩

variable {D : Type} [Add D] [Zero D] [BEq D] [LT D] [LE D] [DecidableLT D] [DecidableLE D]

/-- `c` is a child of `v` -/
def Kid (h : Heap D) (v c : Nat) : Prop := (h.get v).ch0 = some c ∨ (h.get v).ch1 = some c

/-- `m` is below `v` in its auxiliary tree, or `v` itself -/
def Desc (h : Heap D) : Nat → Nat → Prop := Relation.ReflTransGen (Kid h)

/-- `min` points into the subtree of its node -/
def MinD (h : Heap D) : Prop := ∀ v, v < h.size → ∀ m, (h.get v).minP = some m → Desc h v m

/-- the same for the nodes of a tree -/
def MinIn (h : Heap D) : T → Prop
  | nil => True
  | node l x r => (∀ m, (h.get x).minP = some m → m ∈ (node l x r).io) ∧ MinIn h l ∧ MinIn h r

theorem minIn_nd {h : Heap D} {d l x r} : MinIn h (nd d l x r) ↔
    (∀ m, (h.get x).minP = some m → m ∈ (nd d l x r).io) ∧ MinIn h l ∧ MinIn h r := by
  cases d <;> simp only [nd, MinIn, if_true, Bool.false_eq_true, if_false]; tauto

theorem MinIn.congr {h h' : Heap D} {t : T} (M : MinIn h t) (e : ∀ k ∈ t.io, (h'.get k).minP = (h.get k).minP) : MinIn h' t := by
  induction t with
  | nil => trivial
  | node l x r ihl ihr =>
    obtain ⟨a, b, c⟩ := M
    exact ⟨fun m hm => a m (by rw [← e x (by simp)]; exact hm), ihl b fun k hk => e k (by simp [hk]), ihr c fun k hk => e k (by simp [hk])⟩

theorem MinIn.focus {h : Heap D} : ∀ {c : List (Bool × Nat × T)} {t : T}, MinIn h (plug t c) → MinIn h t
  | [], _, M => M
  | (_, _, _) :: _, _, M => (minIn_nd.1 (MinIn.focus M)).2.1

theorem MinIn.replug {h h' : Heap D} : ∀ {c : List (Bool × Nat × T)} {t t' : T}, MinIn h (plug t c) → MinIn h' t' → (∀ k, k ∈ t'.io ↔ k ∈ t.io) →
    (∀ k, (∃ d y s, (d, y, s) ∈ c ∧ (k = y ∨ k ∈ s.io)) → (h'.get k).minP = (h.get k).minP) → MinIn h' (plug t' c)
  | [], _, _, _, M', _, _ => M'
  | (d, y, s) :: c, t, t', M, M', hio, e => by
    refine MinIn.replug (c := c) (t := nd d t y s) (t' := nd d t' y s) M (minIn_nd.2 ⟨fun m hm => ?_, M', ?_⟩) (fun k => ?_) fun k hk => ?_
    · have := (minIn_nd.1 (MinIn.focus (c := c) M)).1 m (by rw [← e y ⟨d, y, s, by simp, .inl rfl⟩]; exact hm)
      rw [mem_io_nd] at this ⊢
      rwa [hio]
    · exact (minIn_nd.1 (MinIn.focus (c := c) M)).2.2.congr fun k hk => e k ⟨d, y, s, by simp, .inr hk⟩
    · rw [mem_io_nd, mem_io_nd, hio]
    · obtain ⟨d', y', s', hm, hk⟩ := hk
      exact e k ⟨d', y', s', List.mem_cons_of_mem _ hm, hk⟩

theorem desc_mem {h : Heap D} {t f} (hs : Shape h t f) {v m : Nat} (hv : v ∈ t.io) (hd : Desc h v m) : m ∈ t.io := by
  induction hd with
  | refl => exact hv
  | tail _ hk ih => exact child_mem' hs ih hk

theorem shape_desc {h : Heap D} {t f x} (hs : Shape h t f) (hx : t.rt = some x) {m : Nat} (hm : m ∈ t.io) : Desc h x m := by
  induction t generalizing f x with
  | nil => simp at hm
  | node l y r ihl ihr =>
    obtain ⟨h1, h2, h3, h4, h5, h6⟩ := hs
    obtain rfl : y = x := by simpa using hx
    simp only [io_node, List.mem_append, List.mem_cons] at hm
    rcases hm with hm | rfl | hm
    · cases l with
      | nil => simp at hm
      | node l1 z l2 => exact .head (b := z) (.inl (by rw [h3]; rfl)) (ihl h5 rfl hm)
    · exact .refl
    · cases r with
      | nil => simp at hm
      | node l1 z l2 => exact .head (b := z) (.inr (by rw [h4]; rfl)) (ihr h6 rfl hm)

theorem minIn_iff {h : Heap D} {t f} (hs : Shape h t f) : MinIn h t ↔ ∀ v ∈ t.io, ∀ m, (h.get v).minP = some m → Desc h v m := by
  induction t generalizing f with
  | nil => simp [MinIn]
  | node l x r ihl ihr =>
    have hs0 := hs
    obtain ⟨h1, h2, h3, h4, h5, h6⟩ := hs
    simp only [MinIn, ihl h5, ihr h6]
    constructor
    · rintro ⟨a, b, c⟩ v hv m hm
      simp only [io_node, List.mem_append, List.mem_cons] at hv
      rcases hv with hv | rfl | hv
      · exact b v hv m hm
      · exact shape_desc hs0 rfl (a m hm)
      · exact c v hv m hm
    · intro H
      refine ⟨fun m hm => desc_mem hs0 (by simp) (H x (by simp) m hm), fun v hv => H v (by simp [hv]), fun v hv => H v (by simp [hv])⟩

theorem SInv.minIn {h : Heap D} {par tr} (I : SInv h par tr) (M : MinD h) {v} (hv : v < h.size) : MinIn h (tr v) :=
  (minIn_iff (I.loc v hv).shape).2 fun u hu => M u ((I.loc v hv).shape.lt hu)

theorem SInv.minD {h : Heap D} {par tr} (I : SInv h par tr) (M : ∀ v, v < h.size → MinIn h (tr v)) : MinD h :=
  fun v hv => (minIn_iff (I.loc v hv).shape).1 (M v hv) v (I.loc v hv).mem

/-- same pointers, and the same `min` -/
def PM (h h' : Heap D) : Prop := Ptrs h h' ∧ ∀ k, (h'.get k).minP = (h.get k).minP

theorem PM.refl (h : Heap D) : PM h h := ⟨.refl h, fun _ => rfl⟩

theorem PM.trans {h1 h2 h3 : Heap D} (a : PM h1 h2) (b : PM h2 h3) : PM h1 h3 := ⟨a.1.trans b.1, fun k => (b.2 k).trans (a.2 k)⟩

theorem PM.desc {h h' : Heap D} (p : PM h h') {v m} (d : Desc h v m) : Desc h' v m := by
  induction d with
  | refl => exact .refl
  | tail _ hk ih => exact ih.tail (by unfold Kid at *; rw [(p.1.2 _).2.1, (p.1.2 _).2.2]; exact hk)

theorem PM.minD {h h' : Heap D} (p : PM h h') (M : MinD h) : MinD h' := fun v hv m hm =>
  p.desc (M v (by rw [← p.1.1]; exact hv) m (by rw [← p.2]; exact hm))

theorem PM.wr {h h' : Heap D} {x : Nat} {n : LNode D} (hx : x < h.size) (e : h.wr x n = .ok h')
    (hn : n.fa = (h.get x).fa ∧ n.ch0 = (h.get x).ch0 ∧ n.ch1 = (h.get x).ch1) (hm : n.minP = (h.get x).minP) : PM h h' := by
  refine ⟨Ptrs.wr hx e hn, fun k => ?_⟩
  rw [Vec.wr_ok _ hx] at e
  cases e
  by_cases hk : k = x
  · subst hk; simpa [Vec.set_get] using hm
  · simp [Vec.set_get, hk]

theorem updateAdd_pm {h h' : Heap D} {x : Nat} {w : D} (e : updateAdd h x w = .ok h') : PM h h' := by
  unfold updateAdd at e
  obtain ⟨n, e1, e⟩ := bind_ok e
  obtain ⟨hx, rfl⟩ := rd_inv e1
  exact PM.wr hx e ⟨rfl, rfl, rfl⟩ rfl

theorem pushDown_pm {h h' : Heap D} {x : Nat} (e : pushDown h x = .ok h') : PM h h' := by
  unfold pushDown at e
  obtain ⟨n, e1, e⟩ := bind_ok e
  cases hb : !(n.add == 0) with
  | false => rw [hb] at e; cases e; exact .refl _
  | true =>
    rw [hb] at e
    have key : ∀ h2 : Heap D, (do let n ← h2.rd x; h2.wr x { n with add := 0 }) = .ok h' → PM h2 h' := by
      intro h2 e
      obtain ⟨n2, f3, e⟩ := bind_ok e
      obtain ⟨hx, rfl⟩ := rd_inv f3
      exact PM.wr hx e ⟨rfl, rfl, rfl⟩ rfl
    have key2 : ∀ h1 : Heap D, (show Res (Heap D) from do
        let h2 ← match n.ch1 with
          | none => .ok h1
          | some c => updateAdd h1 c n.add
        let n ← h2.rd x
        h2.wr x { n with add := 0 }) = .ok h' → PM h1 h' := by
      intro h1 e
      cases hc : n.ch1 with
      | none => rw [hc] at e; exact key _ e
      | some c =>
        rw [hc] at e
        obtain ⟨h2, f2, e⟩ := bind_ok e
        exact (updateAdd_pm f2).trans (key _ e)
    cases hc : n.ch0 with
    | none => rw [hc] at e; exact key2 _ e
    | some c =>
      rw [hc] at e
      obtain ⟨h2, f2, e⟩ := bind_ok e
      exact (updateAdd_pm f2).trans (key2 _ e)

theorem pushDownFromRoot_pm : ∀ (fuel : Nat) {h h' : Heap D} {x : Nat}, pushDownFromRoot fuel h x = .ok h' → PM h h'
  | 0, _, _, _, e => by cases e
  | fuel + 1, h, h', x, e => by
    rw [pushDownFromRoot] at e
    obtain ⟨r, -, e⟩ := bind_ok e
    cases r with
    | true =>
      simp only [Bool.not_true, Bool.false_eq_true, if_false, ok_bind] at e
      exact pushDown_pm e
    | false =>
      simp only [Bool.not_false, if_true] at e
      obtain ⟨n, -, e⟩ := bind_ok e
      obtain ⟨f, -, e⟩ := bind_ok e
      obtain ⟨h1, e1, e⟩ := bind_ok e
      exact (pushDownFromRoot_pm fuel e1).trans (pushDown_pm e)

/-- what `push_up` writes -/
theorem pushUp_min {h h' : Heap D} {x : Nat} (e : pushUp h x = .ok h') : Ptrs h h' ∧ (∀ k, k ≠ x → (h'.get k).minP = (h.get k).minP) ∧
    ((h'.get x).minP = some x ∨ ∃ c, Kid h x c ∧ c < h.size ∧ (h'.get x).minP = (h.get c).minP) := by
  refine ⟨pushUp_ptrs e, ?_⟩
  unfold pushUp at e
  obtain ⟨n, e1, e⟩ := bind_ok e
  obtain ⟨hx, rfl⟩ := rd_inv e1
  have key : ∀ {n : LNode D}, h.wr x n = .ok h' → (n.minP = some x ∨ ∃ c, Kid h x c ∧ c < h.size ∧ n.minP = (h.get c).minP) →
      (∀ k, k ≠ x → (h'.get k).minP = (h.get k).minP) ∧
      ((h'.get x).minP = some x ∨ ∃ c, Kid h x c ∧ c < h.size ∧ (h'.get x).minP = (h.get c).minP) := fun e hn => by
    rw [Vec.wr_ok _ hx] at e
    cases e
    exact ⟨fun k hk => by rw [Vec.set_get_ne _ _ hk], by simpa using hn⟩
  have one : ∀ {c}, (h.get x).ch0 = some c → c < h.size → (if (h.get c).minV ≤ (h.get x).val then ((h.get c).minV, (h.get c).minP)
      else ((h.get x).val, some x)).2 = some x ∨ ∃ c', Kid h x c' ∧ c' < h.size ∧
      (if (h.get c).minV ≤ (h.get x).val then ((h.get c).minV, (h.get c).minP) else ((h.get x).val, some x)).2 = (h.get c').minP := by
    intro c hc hs
    split
    · exact .inr ⟨c, .inl hc, hs, rfl⟩
    · exact .inl rfl
  have two : ∀ {c} (m1 : D × Option Nat), (m1.2 = some x ∨ ∃ c, Kid h x c ∧ c < h.size ∧ m1.2 = (h.get c).minP) → (h.get x).ch1 = some c → c < h.size →
      ((if (h.get c).minV < m1.1 then ((h.get c).minV, (h.get c).minP) else m1).2 = some x ∨ ∃ c', Kid h x c' ∧ c' < h.size ∧
        (if (h.get c).minV < m1.1 then ((h.get c).minV, (h.get c).minP) else m1).2 = (h.get c').minP) := by
    intro c m1 hm hc hs
    split
    · exact .inr ⟨c, .inr hc, hs, rfl⟩
    · exact hm
  cases hc0 : (h.get x).ch0 with
  | none =>
    cases hc1 : (h.get x).ch1 with
    | none =>
      simp only [hc0, hc1, ok_bind] at e
      exact key e (.inl rfl)
    | some c =>
      simp only [hc0, hc1, ok_bind] at e
      obtain ⟨nc, e2, e⟩ := bind_ok e
      obtain ⟨hc, rfl⟩ := rd_inv e2
      exact key e (two (_, _) (.inl rfl) hc1 hc)
  | some c =>
    cases hc1 : (h.get x).ch1 with
    | none =>
      simp only [hc0, hc1, ok_bind] at e
      obtain ⟨nc, e2, e⟩ := bind_ok e
      obtain ⟨hc, rfl⟩ := rd_inv e2
      exact key e (one hc0 hc)
    | some c1 =>
      simp only [hc0, hc1, ok_bind] at e
      obtain ⟨nc, e2, e⟩ := bind_ok e
      obtain ⟨hc, rfl⟩ := rd_inv e2
      obtain ⟨nc, e2, e⟩ := bind_ok e
      obtain ⟨hc', rfl⟩ := rd_inv e2
      exact key e (two _ (one hc0 hc) hc1 hc')

theorem rot_min {h h' : Heap D} {d a x b f s c F}
    (hs : Shape h (plug (nd d (nd d a x b) f s) c) F)
    (hn : (plug (nd d (nd d a x b) f s) c).io.Nodup)
    (hr : RootOK h (plug (nd d (nd d a x b) f s) c) F) (e : rot h x = .ok h') (M : MinIn h (plug (nd d (nd d a x b) f s) c)) :
    MinIn h' (plug (nd d a x (nd d b f s)) c) ∧ ∀ k, k ∉ (plug (nd d (nd d a x b) f s) c).io → (h'.get k).minP = (h.get k).minP := by
  obtain ⟨h1, e1, e2, e3, e4, e5, -⟩ := rot_struct hs hn hr
  rw [e1] at e
  obtain ⟨p, pk, px⟩ := pushUp_min e
  have hfm : f ∈ (plug (nd d (nd d a x b) f s) c).io := by rw [mem_plug]; simp [mem_io_nd]
  have same : ∀ k, k ≠ f → (h'.get k).minP = (h.get k).minP := fun k hk => by rw [pk k hk, (e5 k).2.2.2]
  have hnn := nodup_of_plug hn
  have hdis := @disj_of_plug c _ hn
  have nxf : x ≠ f := by cases d <;> simp [List.nodup_append] at hnn <;> grind
  have nfa : f ∉ a.io := by cases d <;> simp [List.nodup_append] at hnn <;> grind
  have nfb : f ∉ b.io := by cases d <;> simp [List.nodup_append] at hnn <;> grind
  have nfs : f ∉ s.io := by cases d <;> simp [List.nodup_append] at hnn <;> grind
  obtain ⟨Mf, Mx, Ms⟩ := minIn_nd.1 (MinIn.focus M)
  obtain ⟨Mx, Ma, Mb⟩ := minIn_nd.1 Mx
  refine ⟨MinIn.replug (t := nd d (nd d a x b) f s) M ?_ (fun k => by simp only [mem_io_nd]; tauto) (fun k hk => same k ?_), fun k hk => same k ?_⟩
  · refine minIn_nd.2 ⟨fun m hm => ?_, Ma.congr fun k hk => same k (by rintro rfl; exact nfa hk), minIn_nd.2 ⟨fun m hm => ?_,
      Mb.congr fun k hk => same k (by rintro rfl; exact nfb hk), Ms.congr fun k hk => same k (by rintro rfl; exact nfs hk)⟩⟩
    · have := Mx m (by rw [← same x nxf]; exact hm)
      simp only [mem_io_nd] at this ⊢
      tauto
    · have hsub := (shape_plug.1 e3).1
      rw [shape_nd, shape_nd] at hsub
      obtain ⟨-, -, -, -, -, g1, g2, g3, g4, g5, g6⟩ := hsub
      rcases px with px | ⟨k, hk, -, px⟩
      · rw [px] at hm
        cases hm
        simp [mem_io_nd]
      · rw [px, (e5 k).2.2.2] at hm
        have hkid : b.rt = some k ∨ s.rt = some k := by
          unfold Kid at hk
          rw [← g3, ← g4]
          cases d <;> simpa [LNode.ch, or_comm] using hk
        have two : ∀ t : T, MinIn h t → t.rt = some k → m ∈ t.io := by
          intro t Mt ht
          cases t with
          | nil => cases ht
          | node l y r =>
            obtain rfl : y = k := by simpa using ht
            exact Mt.1 m hm
        simp only [mem_io_nd]
        rcases hkid with hk | hk
        · exact .inr (.inl (two b Mb hk))
        · exact .inr (.inr (two s Ms hk))
  · rintro rfl
    obtain ⟨d', y, s', hm, hk⟩ := hk
    have hfm' : k ∈ (nd d (nd d a x b) k s).io := by simp [mem_io_nd]
    have := hdis hfm' hm
    tauto
  · rintro rfl
    exact hk hfm

/-- The loop of `splay`. -/
theorem splayLoop_min {F x} : ∀ (n : Nat) (c : List (Bool × Nat × T)) (fuel : Nat) (h : Heap D) (a b) (h' : Heap D),
    c.length ≤ n → Shape h (plug (node a x b) c) F → (plug (node a x b) c).io.Nodup → RootOK h (plug (node a x b) c) F →
    MinIn h (plug (node a x b) c) →
    whileLoop (fun h => do let r ← isRoot h x; .ok (!r)) (fun h => splayStep h x) fuel h = .ok h' →
    ∃ a' b', (node a' x b').io = (plug (node a x b) c).io ∧ Shape h' (node a' x b') F ∧ MinIn h' (node a' x b') ∧ h'.size = h.size ∧
      ∀ k, k ∉ (plug (node a x b) c).io → SamePtr h h' k ∧ (h'.get k).minP = (h.get k).minP := by
  intro n
  induction n with
  | zero =>
    intro c fuel h a b h' hc hs hn hr M e
    have : c = [] := by cases c <;> simp_all
    subst this
    cases fuel with
    | zero => cases e
    | succ fuel =>
      simp only [whileLoop, isRoot_ctx hs hr, ok_bind, List.isEmpty_nil, Bool.not_true] at e
      cases e
      exact ⟨a, b, rfl, hs, M, rfl, fun k _ => ⟨.refl h k, rfl⟩⟩
  | succ n ih =>
    intro c fuel h a b h' hc hs hn hr M e
    have hroot := isRoot_ctx hs hr
    have hx1 : x < h.size := hs.lt (by rw [mem_plug]; simp)
    cases fuel with
    | zero => cases e
    | succ fuel =>
    cases c with
    | nil =>
      simp only [whileLoop, hroot, ok_bind, List.isEmpty_nil, Bool.not_true] at e
      cases e
      exact ⟨a, b, rfl, hs, M, rfl, fun k _ => ⟨.refl h k, rfl⟩⟩
    | cons fr c =>
      obtain ⟨d, y, s⟩ := fr
      have hfa : (h.get x).fa = some y := (shape_plug.1 hs).1.2.1
      simp only [whileLoop, hroot, ok_bind, List.isEmpty_cons, Bool.not_false] at e
      obtain ⟨h1, e1, e⟩ := bind_ok e
      suffices H : ∃ a1 b1 c1, h1.size = h.size ∧ c1.length ≤ c.length ∧
          (plug (node a1 x b1) c1).io = (plug (node a x b) ((d, y, s) :: c)).io ∧
          Shape h1 (plug (node a1 x b1) c1) F ∧ RootOK h1 (plug (node a1 x b1) c1) F ∧ MinIn h1 (plug (node a1 x b1) c1) ∧
          (∀ k, k ∉ (plug (node a x b) ((d, y, s) :: c)).io → SamePtr h h1 k ∧ (h1.get k).minP = (h.get k).minP) by
        obtain ⟨a1, b1, c1, s2, s3, s4, s5, s6, s7, s10⟩ := H
        simp only [List.length_cons] at hc
        obtain ⟨a2, b2, t1, t2, t3, t4, t5⟩ := ih c1 fuel h1 a1 b1 h' (by omega) s5 (by rw [s4]; exact hn) s6 s7 e
        refine ⟨a2, b2, by rw [t1, s4], t2, t3, by omega, fun k hk => ?_⟩
        have u1 := s10 k hk
        have u2 := t5 k (by rwa [s4])
        exact ⟨u1.1.trans u2.1, u2.2.trans u1.2⟩
      obtain ⟨py, qy, hpy⟩ : ∃ p q, nd d (node a x b) y s = node p y q := by
        cases d <;> exact ⟨_, _, rfl⟩
      have hrooty : isRoot h y = .ok c.isEmpty := by
        apply isRoot_ctx (a := py) (b := qy) (F := F)
        · rw [← hpy]; exact hs
        · rw [← hpy]; exact hr
      have hdx : dir h x = .ok d := dir_ctx (t := node a x b) hs rfl hn
      have orient : ∀ d : Bool, ∃ ad bd, node a x b = nd d ad x bd := by
        intro d; cases d <;> exact ⟨_, _, rfl⟩
      have unorient : ∀ (d : Bool) (p q : T) (z : Nat), ∃ a' b', nd d p z q = node a' z b' := by
        intro d p q z; cases d <;> exact ⟨_, _, rfl⟩
      unfold splayStep at e1
      rw [Vec.rd_ok hx1, ok_bind, hfa] at e1
      simp only [deref, ok_bind, hrooty] at e1
      cases c with
      | nil =>
        simp only [List.isEmpty_nil, Bool.not_true, Bool.false_eq_true, if_false] at e1
        obtain ⟨ad, bd, hab⟩ := orient d
        rw [hab, plug_cons] at hs hn hr M
        obtain ⟨r2, r3, r4, r5, r6⟩ := rot_shape hs hn hr e1
        obtain ⟨m1, m2⟩ := rot_min hs hn hr e1 M
        obtain ⟨a', b', u1⟩ := unorient d ad (nd d bd y s) x
        refine ⟨a', b', [], r2, by simp, ?_, ?_, ?_, ?_, ?_⟩
        · rw [← u1, r4, hab, plug_cons]
        · rw [← u1]; exact r3
        · rw [← u1]; exact r5
        · rw [← u1]; exact m1
        · rw [hab, plug_cons]; exact fun k hk => ⟨r6 k hk, m2 k hk⟩
      | cons fr2 c =>
        obtain ⟨d2, z, s2⟩ := fr2
        have hdy : dir h y = .ok d2 := dir_ctx (t := nd d (node a x b) y s) hs (by simp) hn
        simp only [List.isEmpty_cons, Bool.not_false, if_true, hdx, hdy, ok_bind] at e1
        by_cases hdd : d = d2
        · subst hdd
          rw [if_pos rfl] at e1
          obtain ⟨h2, e6, e4⟩ := bind_ok e1
          obtain ⟨ad, bd, hab⟩ := orient d
          have hs' := hs; have hn' := hn; have hr' := hr; have M' := M
          simp only [plug_cons] at hs' hn' hr' M'
          obtain ⟨r2, r3, r4, r5, r6⟩ := rot_shape hs' hn' hr' e6
          obtain ⟨m1, m2⟩ := rot_min hs' hn' hr' e6 M'
          rw [hab] at r3 r4 r5 r6 m1 m2
          have hnr : (plug (nd d (nd d ad x bd) y (nd d s z s2)) c).io.Nodup := by
            rw [r4, ← hab]; exact hn'
          obtain ⟨q2, q3, q4, q5, q6⟩ := rot_shape r3 hnr r5 e4
          obtain ⟨l1, l2⟩ := rot_min r3 hnr r5 e4 m1
          obtain ⟨a', b', u1⟩ := unorient d ad (nd d bd y (nd d s z s2)) x
          refine ⟨a', b', c, by omega, by simp, ?_, ?_, ?_, ?_, ?_⟩
          · rw [← u1, q4, r4, hab, plug_cons, plug_cons]
          · rw [← u1]; exact q3
          · rw [← u1]; exact q5
          · rw [← u1]; exact l1
          · intro k hk
            simp only [plug_cons] at hk
            have hk1 : k ∉ (plug (nd d (nd d (nd d ad x bd) y s) z s2) c).io := by rw [← hab]; exact hk
            have hk2 : k ∉ (plug (nd d (nd d ad x bd) y (nd d s z s2)) c).io := by rw [r4]; exact hk1
            exact ⟨(r6 k hk1).trans (q6 k hk2), (l2 k hk2).trans (m2 k hk1)⟩
        · have hd2 : d2 = !d := by cases d <;> cases d2 <;> simp_all
          subst hd2
          rw [if_neg hdd] at e1
          obtain ⟨h2, e6, e4⟩ := bind_ok e1
          obtain ⟨ad, bd, hab⟩ := orient d
          have hs' := hs; have hn' := hn; have hr' := hr; have M' := M
          rw [hab] at hs' hn' hr' M'
          obtain ⟨r2, r3, r4, r5, r6⟩ := rot_shape (c := (!d, z, s2) :: c) hs' hn' hr' e6
          obtain ⟨m1, m2⟩ := rot_min (c := (!d, z, s2) :: c) hs' hn' hr' e6 M'
          have hnr : (plug (nd d ad x (nd d bd y s)) ((!d, z, s2) :: c)).io.Nodup := by
            rw [r4]; exact hn'
          have hflip : nd d ad x (nd d bd y s) = nd (!d) (nd d bd y s) x ad := by cases d <;> rfl
          have r3' := r3; have r5' := r5; have hnr' := hnr
          rw [plug_cons, hflip] at r3' r5' hnr' m1
          obtain ⟨q2, q3, q4, q5, q6⟩ := rot_shape r3' hnr' r5' e4
          obtain ⟨l1, l2⟩ := rot_min r3' hnr' r5' e4 m1
          obtain ⟨a', b', u1⟩ := unorient (!d) (nd d bd y s) (nd (!d) ad z s2) x
          refine ⟨a', b', c, by omega, by simp, ?_, ?_, ?_, ?_, ?_⟩
          · rw [← u1, q4, ← hflip, hab]; exact r4
          · rw [← u1]; exact q3
          · rw [← u1]; exact q5
          · rw [← u1]; exact l1
          · intro k hk
            rw [hab] at hk
            have hk2 : k ∉ (plug (nd (!d) (nd (!d) (nd d bd y s) x ad) z s2) c).io := by
              rw [← hflip]; rw [← plug_cons, r4]; exact hk
            exact ⟨(r6 k hk).trans (q6 k hk2), (l2 k hk2).trans (m2 k hk)⟩

theorem pushUp_minIn {h h' : Heap D} {x : Nat} {t f} (hs : Shape h t f) (e : pushUp h x = .ok h') (M : MinIn h t) : MinIn h' t := by
  obtain ⟨p, pk, px⟩ := pushUp_min e
  have hd : ∀ {v m}, Desc h v m → Desc h' v m := fun d => by
    induction d with
    | refl => exact .refl
    | tail _ hk ih => exact ih.tail (by unfold Kid at *; rw [(p.2 _).2.1, (p.2 _).2.2]; exact hk)
  rw [minIn_iff (hs.ptrs p)]
  rw [minIn_iff hs] at M
  intro v hv m hm
  by_cases hvx : v = x
  · subst hvx
    rcases px with px | ⟨c, hc, -, px⟩
    · rw [px] at hm; cases hm; exact .refl
    · rw [px] at hm
      exact hd (.head hc (M c (child_mem' hs hv hc) m hm))
  · rw [pk v hvx] at hm
    exact hd (M v hv m hm)

/-- `splay` -/
theorem SInv.splay_minD {h h' : Heap D} {par tr} (I : SInv h par tr) (M : MinD h) {x fuel} (hx : x < h.size) (e : LCT.splay fuel h x = .ok h') : MinD h' := by
  have L := I.loc x hx
  obtain ⟨a0, b0, c, hfoc⟩ := exists_focus (tr x) x L.mem
  have hs := L.shape
  have hn := L.nodup
  have hr := I.rootOK hx
  have Mx := I.minIn M hx
  set F := (tr x).io.head?.bind par
  rw [← hfoc] at hs hn hr Mx
  unfold LCT.splay at e
  obtain ⟨h1, e1, e⟩ := bind_ok e
  obtain ⟨h2, e2, e3⟩ := bind_ok e
  have p1 := pushDownFromRoot_pm fuel e1
  obtain ⟨a, b, f1, f2, f3, f4, f5⟩ := splayLoop_min c.length c fuel h1 a0 b0 h2 le_rfl (hs.ptrs p1.1) hn
    (hr.ptr p1.1.1 (fun _ => Iff.rfl) fun k _ => p1.1.2 k) (Mx.congr fun k _ => p1.2 k) e2
  have M3 := pushUp_minIn f2 e3 f3
  obtain ⟨p3, pk, -⟩ := pushUp_min e3
  have S3 := f2.ptrs p3
  rw [hfoc] at f1 f5
  have hsz : h'.size = h.size := by rw [p3.1, f4, p1.1.1]
  intro v hv
  by_cases hm : v ∈ (tr x).io
  · exact (minIn_iff S3).1 M3 v (by rw [f1]; exact hm)
  · have Lv := I.loc v (by omega)
    have hd : ∀ u ∈ (tr v).io, u ∉ (tr x).io := by
      intro u hu hux
      have := I.disj (by omega) hx hu hux
      exact hm (by rw [← this]; exact Lv.mem)
    have hsame : ∀ u ∈ (tr v).io, SamePtr h h' u := fun u hu => ((p1.1.2 u).trans (f5 u (hd u hu)).1).trans (p3.2 u)
    have hmin : ∀ u ∈ (tr v).io, (h'.get u).minP = (h.get u).minP := fun u hu => by
      have hux : u ≠ x := by rintro rfl; exact hd u hu L.mem
      rw [pk u hux, (f5 u (hd u hu)).2, p1.2]
    exact (minIn_iff (Lv.shape.congr hsz hsame)).1 ((I.minIn M (by omega)).congr hmin) v Lv.mem

/-- the root of an auxiliary tree is nobody's child -/
theorem SInv.no_kid {h : Heap D} {par tr} (I : SInv h par tr) {p a b} (hp : p < h.size) (ht : tr p = node a p b) {v : Nat} (hv : v < h.size) :
    ¬ Kid h v p := by
  intro hk
  have Lv := I.loc v hv
  have e := Lv.same p (child_mem' Lv.shape Lv.mem hk)
  have L := I.loc p hp
  have hvm : v ∈ (tr p).io := by rw [e]; exact Lv.mem
  have hs := L.shape
  have hn := L.nodup
  rw [ht] at hvm hs hn
  obtain ⟨s1, s2, s3, s4, s5, s6⟩ := hs
  simp only [io_node, List.nodup_append, List.nodup_cons, List.mem_cons] at hn
  obtain ⟨n1, ⟨n2, n3⟩, n4⟩ := hn
  simp only [io_node, List.mem_append, List.mem_cons] at hvm
  rcases hvm with hvm | rfl | hvm
  · exact n4 p (child_mem' s5 hvm hk) p (.inl rfl) rfl
  · unfold Kid at hk
    rw [s3, s4] at hk
    rcases hk with hk | hk
    · exact n4 v (rt_mem hk) v (.inl rfl) rfl
    · exact n2 (rt_mem hk)
  · exact n2 (child_mem' s6 hvm hk)

/-- the children of a node which is nobody's child are changed, then `push_up` -/
theorem minD_change {h h1 h2 : Heap D} {p : Nat} (M : MinD h) (hsz : h1.size = h.size) (hno : ∀ v, v < h.size → ¬ Kid h v p)
    (hkid : ∀ v, v ≠ p → ∀ c, Kid h v c → Kid h1 v c) (hmin : ∀ v, (h1.get v).minP = (h.get v).minP)
    (hin : ∀ v c, v < h.size → Kid h v c → c < h.size)
    (hp : ∀ c, Kid h1 p c → c < h.size ∧ c ≠ p) (e : pushUp h1 p = .ok h2) : MinD h2 := by
  obtain ⟨q, qk, qx⟩ := pushUp_min e
  have kid2 : ∀ v c, Kid h1 v c → Kid h2 v c := fun v c hk => by unfold Kid at *; rw [(q.2 _).2.1, (q.2 _).2.2]; exact hk
  have hd : ∀ v m, v < h.size → v ≠ p → Desc h v m → Desc h2 v m := fun v m hv hvp d => by
    induction d using Relation.ReflTransGen.head_induction_on with
    | refl => exact .refl
    | head hk _ ih =>
      next a c =>
      exact .head (kid2 _ _ (hkid _ hvp _ hk)) (ih (hin _ _ hv hk) (by rintro rfl; exact hno _ hv hk))
  intro v hv m hm
  have hv' : v < h.size := by rw [q.1, hsz] at hv; exact hv
  by_cases hvp : v = p
  · subst hvp
    rcases qx with qx | ⟨c, hc, -, qx⟩
    · rw [qx] at hm; cases hm; exact .refl
    · rw [qx, hmin] at hm
      obtain ⟨c1, c2⟩ := hp c hc
      exact .head (kid2 _ _ hc) (hd c m c1 c2 (M c c1 m hm))
  · rw [qk v hvp, hmin] at hm
    exact hd v m hv' hvp (M v hv' m hm)

theorem SInv.kid_lt {h : Heap D} {par tr} (I : SInv h par tr) {v c} (hv : v < h.size) (hk : Kid h v c) : c < h.size :=
  (I.loc v hv).shape.lt (child_mem' (I.loc v hv).shape (I.loc v hv).mem hk)

/-- one iteration of the loop of `access` -/
theorem SInv.accessStep_minD {h h1 h2 h3 : Heap D} {par tr} (I : SInv h par tr) (M : MinD h) {p Q fuel} (hp : p < h.size) (hQ : SQ h par tr p Q)
    (e1 : LCT.splay fuel h p = .ok h1) (e2 : setc h1 p Q.rt true = .ok h2) (e3 : pushUp h2 p = .ok h3) :
    ∃ tr' a, h3.size = h.size ∧ SInv h3 par tr' ∧ MinD h3 ∧ (h3.get p).fa = (node a p Q).io.head?.bind par ∧
      (∀ v ∈ (node a p Q).io, v < h.size ∧ tr' v = node a p Q) := by
  have M1 := I.splay_minD M hp e1
  obtain ⟨k, e1'⟩ := er_inv (splayC_er fuel h p) e1
  obtain ⟨a0, b0, c, hfoc⟩ := exists_focus (tr p) p (I.loc p hp).mem
  have hnm := I.not_mem hp hQ
  obtain ⟨tr1, a, b, -, f2, I1, f3, -, f5, -⟩ := I.splay hp hfoc e1'
  have hQ1 : SQ h1 par tr1 p Q := ⟨fun v hv => ⟨by rw [f2]; exact (hQ.1 v hv).1, by rw [f5 v (hnm v hv)]; exact (hQ.1 v hv).2⟩, hQ.2⟩
  obtain ⟨tr2, g1, I2, g2, g3, g4, -⟩ := I1.splice (by omega) hQ1 f3 e2
  have pp := pushUp_ptrs e3
  have L2 := I2.loc p (by omega)
  have S2 := L2.shape
  have N2 := L2.nodup
  rw [g2] at S2 N2
  obtain ⟨h2', q1, q2, q3, q4, q5⟩ := Mem.setc_spec h1 p Q.rt true (by omega) fun c hc => (hQ1.1 c (rt_mem hc)).1
  obtain rfl : h2' = h2 := by rw [e2] at q1; cases q1; rfl
  have M3 : MinD h3 := by
    refine minD_change M1 q2 (fun v hv => I1.no_kid (by omega) f3 hv) (fun v hv c hk => ?_) q5 (fun v c hv hk => I1.kid_lt hv hk) (fun c hk => ?_) e3
    · have k0 := q4 v false
      have k1 := q4 v true
      rw [if_neg (by simp)] at k0
      rw [if_neg (by simp [hv])] at k1
      unfold Kid at *
      simp only [LNode.ch, Bool.false_eq_true, if_false, if_true] at k0 k1
      rw [k0, k1]
      exact hk
    · obtain ⟨s1, s2, s3, s4, s5, s6⟩ := S2
      simp only [io_node, List.nodup_append, List.nodup_cons, List.mem_cons] at N2
      obtain ⟨n1, ⟨n2, n3⟩, n4⟩ := N2
      unfold Kid at hk
      rw [s3, s4] at hk
      rcases hk with hk | hk
      · exact ⟨by rw [← q2]; exact s5.lt (rt_mem hk), by rintro rfl; exact n4 c (rt_mem hk) c (.inl rfl) rfl⟩
      · exact ⟨by rw [← q2]; exact s6.lt (rt_mem hk), by rintro rfl; exact n2 (rt_mem hk)⟩
  refine ⟨tr2, a, by rw [pp.1, g1, f2], I2.ptrs pp, M3, by rw [(pp.2 p).1, g3], fun v hv => ⟨by have := (g4 v hv).1; omega, (g4 v hv).2⟩⟩

theorem accessLoop_minD {par : Nat → Option Nat} {fuel0 : Nat} : ∀ (fuel : Nat) {h h' : Heap D} {tr : Nat → T} {p : Option Nat} {Q : T},
    SInv h par tr → MinD h → (∀ x, p = some x → x < h.size ∧ SQ h par tr x Q) → accessLoop fuel0 fuel h p Q.rt = .ok h' →
    ∃ tr', SInv h' par tr' ∧ MinD h' ∧ h'.size = h.size
  | 0, _, _, _, _, _, _, _, _, e => by cases e
  | fuel + 1, h, h', tr, none, Q, I, M, _, e => by
    cases e
    exact ⟨tr, I, M, rfl⟩
  | fuel + 1, h, h', tr, some p, Q, I, M, hp, e => by
    rw [accessLoop] at e
    obtain ⟨h1, e1, e⟩ := bind_ok e
    obtain ⟨h2, e2, e⟩ := bind_ok e
    obtain ⟨h3, e3, e⟩ := bind_ok e
    obtain ⟨n, e4, e⟩ := bind_ok e
    obtain ⟨-, rfl⟩ := rd_inv e4
    obtain ⟨hps, hQ⟩ := hp p rfl
    obtain ⟨tr', a, f1, I3, M3, f2, f3⟩ := I.accessStep_minD M hps hQ e1 e2 e3
    have hnext : ∀ x, (h3.get p).fa = some x → x < h3.size ∧ SQ h3 par tr' x (node a p Q) := by
      intro x hx
      rw [f2] at hx
      obtain ⟨z, hz, hzx⟩ : ∃ z, (node a p Q).io.head? = some z ∧ par z = some x := by
        simpa [Option.bind_eq_some_iff] using hx
      refine ⟨I3.range z x hzx (by have := (f3 z (List.mem_of_head? hz)).1; omega), fun v hv => ⟨by have := (f3 v hv).1; omega, (f3 v hv).2⟩, fun w hw => ?_⟩
      rw [hz] at hw
      cases hw
      exact hzx
    obtain ⟨tr2, g1, g2, g3⟩ := accessLoop_minD (Q := node a p Q) fuel I3 M3 hnext e
    exact ⟨tr2, g1, g2, by omega⟩

theorem access_lt {fuel : Nat} {h h' : Heap D} {x : Nat} (e : access fuel h x = .ok h') : x < h.size := by
  obtain ⟨k, e⟩ := er_inv (accessC_er fuel h x) e
  exact accessC_lt e

/-- `access` -/
theorem SInv.access_minD {h h' : Heap D} {par tr} (I : SInv h par tr) (M : MinD h) {x fuel} (e : LCT.access fuel h x = .ok h') :
    ∃ tr' A, h'.size = h.size ∧ SInv h' par tr' ∧ tr' x = node A x nil ∧ (node A x nil).io.head?.bind par = none ∧ MinD h' := by
  have hx := access_lt e
  obtain ⟨k, e'⟩ := er_inv (accessC_er fuel h x) e
  obtain ⟨tr', A, f1, f2, f3, f4, -⟩ := I.access hx e'
  refine ⟨tr', A, f1, f2, f3, f4, ?_⟩
  unfold LCT.access at e
  obtain ⟨h1, e1, e⟩ := bind_ok e
  obtain ⟨tr1, g1, g2, g3⟩ := accessLoop_minD (Q := nil) fuel I M (fun y hy => ⟨Option.some.inj hy ▸ hx, by simp [SQ]⟩) e1
  exact g1.splay_minD g2 (by omega) e

end AHO.LCT
