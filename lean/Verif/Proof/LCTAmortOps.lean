import Verif.Proof.LCTSizes
/-!
# Amortised number of steps of the operations
-/

namespace AHO.LCT
open AHO T
set_option linter.unusedSectionVars false

variable {D : Type} [Add D] [Zero D] [BEq D] [LT D] [LE D] [DecidableLT D] [DecidableLE D]

theorem nxR_congr {R R' : Nat → Nat} {l : List Nat} (h : ∀ k ∈ l, R' k = R k) (k : Nat) : nxR R' l k = nxR R l k := by
  induction l with
  | nil => rfl
  | cons y l ih =>
    simp only [nxR]
    split
    · cases l with
      | nil => rfl
      | cons z l => exact h z (by simp)
    · exact ih fun k hk => h k (by simp [hk])

theorem phiR_congr {R R' : Nat → Nat} {t : T} (h : ∀ k ∈ t.io, R' k = R k) : phiR R' t = phiR R t :=
  phi_congr fun k hk => by unfold wt; rw [h k hk, nxR_congr h]

theorem nxR_shift {R R' : Nat → Nat} {s : Nat} {l : List Nat} {p : Nat} (h : ∀ k ∈ l ++ [p], R' k = R k + s) {k : Nat} (hk : k ∈ l) :
    nxR R' (l ++ [p]) k = nxR R (l ++ [p]) k + s := by
  induction l with
  | nil => cases hk
  | cons y l ih =>
    simp only [List.cons_append, nxR]
    split
    · cases l with
      | nil => exact h p (by simp)
      | cons z l => exact h z (by simp)
    · next hne =>
      exact ih (fun k hk => h k (by rw [List.cons_append]; exact List.mem_cons_of_mem _ hk))
        ((List.mem_cons.1 hk).resolve_left fun e => hne e.symm)

theorem wt_shift {R R' : Nat → Nat} {s : Nat} {l : List Nat} {p : Nat} (h : ∀ k ∈ l ++ [p], R' k = R k + s) {k : Nat} (hk : k ∈ l) :
    wt R' (l ++ [p]) k = wt R (l ++ [p]) k := by
  unfold wt
  rw [nxR_shift h hk, h k (by simp [hk]), Nat.add_sub_add_right]

theorem nxR_last {R R' : Nat → Nat} {l : List Nat} {p : Nat} (h : ∀ k ∈ l, R' k = R k) (hp : R' p = 0) {k : Nat} (hk : k ∈ l) :
    nxR R' (l ++ [p]) k = nxR R l k := by
  induction l with
  | nil => cases hk
  | cons y l ih =>
    simp only [List.cons_append, nxR]
    split
    · cases l with
      | nil => exact hp
      | cons z l => exact h z (by simp)
    · next hne => exact ih (fun k hk => h k (List.mem_cons_of_mem _ hk)) ((List.mem_cons.1 hk).resolve_left fun e => hne e.symm)

/-- the other trees keep their potential when the sizes change only along `Q` -/
theorem pot_recast {N : Nat} {R R' : Nat → Nat} {tr : Nat → T} {Q : T} (hQ : ∀ u ∈ Q.io, u < N ∧ tr u = Q)
    (h : ∀ u, u < N → u ∉ Q.io → ∀ k ∈ (tr u).io, R' k = R k) : pot N R' tr - phiR R' Q = pot N R tr - phiR R Q := by
  have hsub : Q.io.toFinset ⊆ Finset.range N := fun v hv => Finset.mem_range.2 (hQ v (List.mem_toFinset.1 hv)).1
  unfold pot
  rw [← Finset.sum_sdiff hsub (f := fun v => potAt R tr v), ← Finset.sum_sdiff hsub (f := fun v => potAt R' tr v),
    pot_class fun u hu => (hQ u hu).2, pot_class fun u hu => (hQ u hu).2]
  have : ∑ v ∈ Finset.range N \ Q.io.toFinset, potAt R' tr v = ∑ v ∈ Finset.range N \ Q.io.toFinset, potAt R tr v := by
    refine Finset.sum_congr rfl fun v hv => ?_
    rw [Finset.mem_sdiff, Finset.mem_range, List.mem_toFinset] at hv
    rw [potAt, potAt, phiR_congr (h v hv.1 hv.2)]
  rw [this]
  ring

theorem phiR_top {R : Nat → Nat} {A : T} {v : Nat} (hn : (node A v nil).io.Nodup) (hd : Dec R (node A v nil).io) :
    phiR R (node A v nil) = lg (hdR R (node A v nil).io) + phi (wt R (A.io ++ [v])) A := by
  have h2 := sz_wt hn hd
  simp only [sz] at h2
  unfold phiR
  simp only [phi, sz, h2]
  simp

/-- all the other trees are disjoint from the path of `v` -/
theorem SInv.off {h : Heap D} {par tr} (I : SInv h par tr) {v : Nat} (hv : v < h.size) {u : Nat} (hu : u < h.size) (hm : u ∉ (tr v).io) :
    ∀ k ∈ (tr u).io, k ∉ (tr v).io := fun k hk hk' => by
  have := I.disj hu hv hk hk'
  exact hm (by rw [← this]; exact (I.loc u hu).mem)

theorem SInv.pot_nonneg {h : Heap D} {par tr} (I : SInv h par tr) : 0 ≤ pot h.size (siz h.size par) tr := by
  refine Finset.sum_nonneg fun v hv => ?_
  rw [Finset.mem_range] at hv
  have L := I.loc v hv
  unfold potAt
  split
  · have dR : Dec (siz h.size par) (tr v).io := dec_of_chain L.chain fun z' hz' p' hp' =>
      siz_child I.acyc (I.range z' p' hp' (L.shape.lt hz')) hp'
    exact phi_nonneg fun k hk => wt_pos dR hk (siz_pos (L.shape.lt hk))
  · exact le_rfl

/-- `access` -/
theorem SInv.access {h h' : Heap D} {par tr} (I : SInv h par tr) {x fuel k} (hx : x < h.size) (e : accessC fuel h x = .ok (k, h')) :
    ∃ tr' A, h'.size = h.size ∧ SInv h' par tr' ∧ tr' x = node A x nil ∧ (node A x nil).io.head?.bind par = none ∧
      (k : ℝ) + 6 * (pot h.size (siz h.size par) tr' - pot h.size (siz h.size par) tr) ≤ 42 * lg (h.size + 1) + 11 := by
  unfold accessC at e
  obtain ⟨⟨k1, h4⟩, e1, e⟩ := bind_ok e
  obtain ⟨⟨m, h5⟩, e2, e⟩ := bind_ok e
  cases e
  cases fuel with
  | zero => cases e1
  | succ fuel =>
  rw [accessLoopC] at e1
  simp only [] at e1
  obtain ⟨⟨k0, h1⟩, e3, e1⟩ := bind_ok e1
  obtain ⟨h2, e4, e1⟩ := bind_ok e1
  obtain ⟨h3, e5, e1⟩ := bind_ok e1
  obtain ⟨n, e6, e1⟩ := bind_ok e1
  obtain ⟨⟨k2, h6⟩, e7, e1⟩ := bind_ok e1
  cases e1
  obtain ⟨-, rfl⟩ := rd_inv e6
  have X := wts_self (N := h.size) I.acyc I.range x
  set N := h.size with hN
  set R := siz N par with hR
  have L := I.loc x hx
  obtain ⟨a0, b0, c, hfoc⟩ := exists_focus (tr x) x L.mem
  obtain ⟨tr1, a, b, f1, f2, I1, f3, f4, f5, f6, f7, f8⟩ := I.splay hx hfoc e3
  obtain ⟨tr2, g1, I2, g2, g3, g4, g5⟩ := I1.splice (p := x) (a := a) (b := b) (Q := nil) (by omega) ⟨by simp, by simp⟩ f3 e4
  have pp := pushUp_ptrs e5
  rw [(pp.2 x).1, g3] at e7
  have dR : Dec R (tr x).io := dec_of_chain L.chain fun z' hz' p' hp' => siz_child I.acyc (I.range z' p' hp' (L.shape.lt hz')) hp'
  have L2 := I2.loc x (by omega)
  have hn2 := L2.nodup
  have hc2 := L2.chain
  rw [g2] at hn2 hc2
  have d1 : Dec R (node a x nil).io := dec_of_chain hc2 fun z' hz' p' hp' => siz_child I.acyc (I.range z' p' hp' (by have := (g4 z' hz').1; omega)) hp'
  have hn1 : (node a x b).io.Nodup := by rw [f4]; exact L.nodup
  have hlt : ∀ k ∈ (tr x).io, k < N := fun k hk => L.shape.lt hk
  have hNa : N ∉ a.io ∧ N ≠ x := ⟨fun hk => absurd (hlt N (by rw [← f4]; simp [hk])) (lt_irrefl _), by omega⟩
  have key := phiR_graft (R := R) (R1 := R) (δ := 0) (v := N) (a := a) (b := b) (Q := nil) (p := x) (fun _ _ => rfl) hNa hn1 hn2
    (by rw [f4]; exact dR) d1
  have hhd : hdR R (node a x nil).io = hdR R (tr x).io := by
    rw [← f4, io_node, io_node]; exact hdR_append a.io x nil.io b.io
  rw [hhd, f4] at key
  have hWpos : ∀ k ∈ (tr x).io, 1 ≤ wt R (tr x).io k := fun k hk => wt_pos dR hk (X.pos k (L.shape.lt hk))
  obtain ⟨w1, w2⟩ := f8 (wt R (tr x).io) hWpos
  rw [sz_wt L.nodup dR] at w1 w2
  have q4 : phi (wt R (tr x).io) (node a x b) = phiR R (node a x b) := by unfold phiR; rw [f4]
  have q5 : phi (wt R (tr x).io) (tr x) = phiR R (tr x) := rfl
  rw [q4, q5] at w1 w2
  have p1 := f7 R
  have p2 := g5 R
  rw [f2] at p2
  have l1 : 0 ≤ lg (sz (wt R (tr x).io) (node a0 x b0)) := lg_nonneg (sz_pos_node (hWpos x L.mem))
  have hh1 : 1 ≤ hdR R (tr x).io ∧ hdR R (tr x).io ≤ N + 1 := by
    cases hl : (tr x).io with
    | nil => have := L.mem; rw [hl] at this; cases this
    | cons z l => exact X.pos1 z (hlt z (by simp [hl]))
  have l2 : lg (hdR R (tr x).io) ≤ lg (N + 1) := lg_mono hh1.1 hh1.2
  have l3 : 0 ≤ lg (hdR R (tr x).io) := lg_nonneg hh1.1
  obtain ⟨tr3, A, t1, I3, t2, t3, t4⟩ := SInv.accessTail X (by rw [pp.1, g1, f2]) (I2.ptrs pp)
    (fun u hu => ⟨by have := (g4 u hu).1; omega, (g4 u hu).2⟩) e7 e2
  rw [hhd] at t4
  refine ⟨tr3, A, t1, I3, t2, t3, ?_⟩
  have hk : (k0 : ℝ) = 2 * c.length + 1 := by exact_mod_cast f1
  unfold Psi at t4
  push_cast
  rw [hk]
  have hphi : phiR R nil = 0 := rfl
  linarith

/-- `set_fa`, before the new parent is looked at -/
theorem SInv.setFa {h h' : Heap D} {par tr} (I : SInv h par tr) {x f fuel k} (hx : x < h.size) (hfs : f < h.size)
    (hp : par x = none) (hr : ¬ OnPath par f x) (e : setFaC fuel h x f = .ok (k, h')) :
    ∃ tr' b, h'.size = h.size ∧ SInv h' (Function.update par x (some f)) tr' ∧ tr' x = node nil x b ∧
      (k : ℝ) + 6 * (pot h.size (siz h.size par) tr' - pot h.size (siz h.size par) tr) ≤ 18 * lg (h.size + 1) + 3 ∧
      0 ≤ pot h.size (siz h.size par) tr' := by
  unfold setFaC at e
  obtain ⟨⟨k0, h1⟩, e1, e⟩ := bind_ok e
  obtain ⟨n, e2, e⟩ := bind_ok e
  obtain ⟨-, rfl⟩ := rd_inv e2
  split at e
  swap
  · cases e
  obtain ⟨h2, e3, e⟩ := bind_ok e
  cases e
  have X := wts_self (N := h.size) I.acyc I.range x
  have Lx := I.loc x hx
  obtain ⟨a0, b0, c, hfoc⟩ := exists_focus (tr x) x Lx.mem
  obtain ⟨tr1, a, b, f1, f2, I1, e4, f4, f5, f6, f7, f8⟩ := I.splay hx hfoc e1
  rw [Vec.wr_ok _ (by omega)] at e3
  cases e3
  have L := I1.loc x (by omega)
  have hch := L.chain
  have hsh := L.shape
  have hnd := L.nodup
  rw [e4] at hch hsh hnd
  have ha : a = nil := by
    rw [← io_eq_nil]
    by_contra hne
    rw [io_node, List.isChain_append] at hch
    obtain ⟨z, hz⟩ : ∃ z, a.io.getLast? = some z := by
      cases hh : a.io.getLast? with
      | none => exact absurd (List.getLast?_eq_none_iff.1 hh) hne
      | some z => exact ⟨z, rfl⟩
    have := hch.2.2 z hz x (by simp)
    rw [hp] at this; simp at this
  subst ha
  have hsm := L.same
  rw [e4] at hsm
  simp only [io_node, io_nil, List.nil_append, List.mem_cons, List.nodup_cons] at hsm hnd
  refine ⟨tr1, b, f2, ⟨fun v hv => ?_, fun v u hvu hv => ?_, acyc_link I.acyc hp hr⟩, e4, ?_, by have := I1.pot_nonneg; rwa [f2] at this⟩
  · have hv1 : v < h1.size := hv
    have Lv := I1.loc v hv1
    by_cases hm : v ∈ (node nil x b).io
    · have et : tr1 v = node nil x b := by rw [← e4]; exact L.same v (by rw [e4]; exact hm)
      constructor
      · exact Lv.mem
      · exact Lv.same
      · exact Lv.nodup
      · rw [et]
        simp only [io_node, io_nil, List.nil_append] at hch ⊢
        rw [List.isChain_iff_getElem] at hch ⊢
        intro i hi
        have := hch i hi
        rw [Function.update_of_ne, this]
        intro e
        simp only [List.getElem_cons_succ] at e
        exact hnd.1 (e ▸ List.getElem_mem _)
      · rw [et]
        simp only [io_node, io_nil, List.nil_append, List.head?_cons, Option.bind_some,
          Function.update_self]
        refine hsh.reparent rfl (fun k hk => ?_) (fun z hz => ?_) ?_
        · by_cases hkx : k = x
          · subst hkx; simp
          · rw [Vec.set_get_ne _ _ hkx]; simp
        · have : x = z := by simpa using hz
          subst this; simp
        · simpa using hnd
    · have hd : ∀ u ∈ (tr1 v).io, u ≠ x := by
        rintro u hu rfl
        have := Lv.same u hu
        rw [e4] at this
        exact hm (by rw [this]; exact Lv.mem)
      refine Lv.congr rfl (fun _ _ => rfl) (fun u hu => ?_) (fun u hu => Function.update_of_ne (hd u hu) _ _)
      rw [SamePtr, Vec.set_get_ne _ _ (hd u hu)]
      exact ⟨rfl, rfl, rfl⟩
  · have hv1 : v < h1.size := hv
    show u < h1.size
    by_cases hvx : v = x
    · subst hvx; simp at hvu; omega
    · rw [Function.update_of_ne hvx] at hvu
      exact I1.range v u hvu hv1
  · set N := h.size with hN
    set R := siz N par with hR
    have dR : Dec R (tr x).io := dec_of_chain Lx.chain fun z' hz' p' hp' => siz_child I.acyc (I.range z' p' hp' (Lx.shape.lt hz')) hp'
    have hWpos : ∀ k ∈ (tr x).io, 1 ≤ wt R (tr x).io k := fun k hk => wt_pos dR hk (X.pos k (Lx.shape.lt hk))
    obtain ⟨w1, w2⟩ := f8 (wt R (tr x).io) hWpos
    rw [sz_wt Lx.nodup dR] at w1 w2
    have q4 : phi (wt R (tr x).io) (node nil x b) = phiR R (node nil x b) := by unfold phiR; rw [f4]
    have q5 : phi (wt R (tr x).io) (tr x) = phiR R (tr x) := rfl
    rw [q4, q5] at w1 w2
    have p1 := f7 R
    have l1 : 0 ≤ lg (sz (wt R (tr x).io) (node a0 x b0)) := lg_nonneg (sz_pos_node (hWpos x Lx.mem))
    have l2 : lg (hdR R (tr x).io) ≤ lg (N + 1) := by
      cases hl : (tr x).io with
      | nil => have := Lx.mem; rw [hl] at this; cases this
      | cons z l =>
        have := X.pos1 z (Lx.shape.lt (by simp [hl]))
        exact lg_mono this.1 this.2
    have hk : (k : ℝ) = 2 * c.length + 1 := by exact_mod_cast f1
    rw [hk]
    linarith

/-- the access after `set_fa` -/
theorem SInv.linkAccess {h h' : Heap D} {par tr} {x f fuel k b} (ac : Acyc par) (hrg : ∀ v u, par v = some u → v < h.size → u < h.size)
    (I : SInv h (Function.update par x (some f)) tr) (hx : x < h.size) (hfs : f < h.size)
    (hp : par x = none) (hr : ¬ OnPath par f x) (ht : tr x = node nil x b) (e : accessC fuel h x = .ok (k, h')) :
    ∃ tr' A, h'.size = h.size ∧ SInv h' (Function.update par x (some f)) tr' ∧ tr' x = node A x nil ∧
      (node A x nil).io.head?.bind (Function.update par x (some f)) = none ∧
      (k : ℝ) + 6 * (pot h.size (siz h.size (Function.update par x (some f))) tr' - pot h.size (siz h.size par) tr) ≤
        48 * lg (h.size + 1) + 9 := by
  unfold accessC at e
  obtain ⟨⟨k1, h4⟩, e1, e⟩ := bind_ok e
  obtain ⟨⟨m, h5⟩, e2, e⟩ := bind_ok e
  cases e
  cases fuel with
  | zero => cases e1
  | succ fuel =>
  rw [accessLoopC] at e1
  simp only [] at e1
  obtain ⟨⟨k0, h1⟩, e3, e1⟩ := bind_ok e1
  obtain ⟨h2, e4, e1⟩ := bind_ok e1
  obtain ⟨h3, e5, e1⟩ := bind_ok e1
  obtain ⟨n, e6, e1⟩ := bind_ok e1
  obtain ⟨⟨k2, h6⟩, e7, e1⟩ := bind_ok e1
  cases e1
  obtain ⟨-, rfl⟩ := rd_inv e6
  have hfx : f ≠ x := by rintro rfl; exact hr .refl
  have X := wts_link ac hrg hp hfs hfx
  set N := h.size with hN
  set par' := Function.update par x (some f) with hpar'
  set R := siz N par with hR
  set R' := siz N par' with hR'
  set R1 : Nat → Nat := fun k => if k = x then 1 else R k + 1 with hR1
  obtain ⟨tr1, a1, b1, f1, f2, I1, f3, f4, f5, f6, f7, f8⟩ := I.splay (c := []) hx ht.symm e3
  obtain ⟨rfl, hb1⟩ : a1 = nil ∧ b1 = b := by
    have := f6.1 rfl
    injection this with i1 _ i2
    exact ⟨i1, i2⟩
  rw [hb1] at f3 f4 f6 f7 f8
  clear hb1 b1
  obtain ⟨tr2, g1, I2, g2, g3, g4, g5⟩ := I1.splice (p := x) (a := nil) (b := b) (Q := nil) (by omega) ⟨by simp, by simp⟩ f3 e4
  have pp := pushUp_ptrs e5
  rw [(pp.2 x).1, g3] at e7
  obtain ⟨tr3, A, t1, I3, t2, t3, t4⟩ := SInv.accessTail X (by rw [pp.1, g1, f2]) (I2.ptrs pp)
    (fun u hu => ⟨by have := (g4 u hu).1; omega, (g4 u hu).2⟩) e7 e2
  refine ⟨tr3, A, t1, I3, t2, t3, ?_⟩
  have L := I.loc x hx
  have hnb := L.nodup
  rw [ht] at hnb
  have hxb : x ∉ b.io := by simpa using (List.nodup_cons.1 hnb).1
  have p1 := f7 R
  have p2 := g5 R
  rw [f2] at p2
  rw [ht] at p1
  have hb : phiR R b ≤ phiR R (node nil x b) := by
    have : phi (wt R (node nil x b).io) b = phiR R b := phi_congr fun k hk => by
      simp only [io_node, io_nil, List.nil_append]
      exact wt_cons fun e => hxb (e ▸ hk)
    have h0 : 1 ≤ wt R (node nil x b).io x := by
      have hc := L.chain
      rw [ht] at hc
      simp only [io_node, io_nil, List.nil_append] at hc ⊢
      unfold wt
      rw [nxR, if_pos rfl]
      cases hl : b.io with
      | nil => have := siz_pos (par := par) hx; simpa [hdR] using this
      | cons z l =>
        rw [hl, List.isChain_cons_cons] at hc
        have := X.edge z x hc.1 (L.shape.lt (by rw [ht]; simp [hl])) (by rintro rfl; exact hxb (by simp [hl]))
        simp only [hdR]
        omega
    unfold phiR at this ⊢
    simp only [phi, this]
    have := lg_nonneg (sz_pos_node (W := wt R (node nil x b).io) (a := nil) (b := b) h0)
    simp only [sz] at this ⊢
    linarith
  have hd1 : lg (hdR R1 (node nil x nil).io) = 0 := by
    simp [hdR, hR1]
  have hph1 : phiR R1 (node nil x nil) = 0 := by
    have : wt R1 [x] x = 1 := by simp [wt, nxR, hdR, hR1]
    simp only [phiR, phi, sz, io_node, io_nil, List.nil_append, this]
    simp
  have L3 := I3.loc x (by omega)
  have hn3 := L3.nodup
  have hc3 := L3.chain
  have hs3 := L3.shape
  have hm3 := L3.same
  rw [t2] at hn3 hc3 hs3 hm3
  have hup : ∀ u, u ∈ A.io ++ [x] ↔ OnPath par' x u := chain_up hc3 t3
  have hxA : x ∉ A.io := fun hk => (List.nodup_append.1 hn3).2.2 x hk x (by simp) rfl
  have hself : ∀ u, OnPath par x u → u = x := fun u hu => by
    rcases hu.cases_head with h | ⟨c, hc, -⟩
    · exact h.symm
    · rw [Up, hp] at hc; cases hc
  have hA : ∀ u, u ≠ x → (u ∈ A.io ↔ OnPath par f u) := fun u hu => by
    have := hup u
    rw [hpar', onPath_link hp] at this
    simp only [List.mem_append, List.mem_singleton, hu, or_false] at this
    rw [this]
    exact ⟨fun h => h.elim (fun h => absurd (hself u h) hu) fun h => h.2, fun h => .inr ⟨.refl, h⟩⟩
  have hRx : R' x = R x := (siz_link hp hr x).2 hr
  have hRA : ∀ u ∈ A.io, R' u = R u + R x := fun u hu =>
    (siz_link hp hr u).1 ((hA u (by rintro rfl; exact hxA hu)).1 hu)
  have hRo : ∀ u, u ∉ (node A x nil).io → R' u = R u := fun u hu => by
    have h1 : u ≠ x := by rintro rfl; exact hu (by simp)
    exact (siz_link hp hr u).2 fun h => hu (by simp [(hA u h1).2 h])
  have rc := pot_recast (N := N) (R := R) (R' := R') (tr := tr3) (Q := node A x nil)
    (fun u hu => ⟨by have := hs3.lt hu; omega, hm3 u hu⟩)
    fun u hu hn k hk => hRo k fun hk' => I3.off (v := x) (by omega) (u := u) (by omega) (by rw [t2]; exact hn) k hk (by rw [t2]; exact hk')
  have d1 : Dec R1 (node A x nil).io := dec_of_chain_last hc3 hn3 (by simp) fun z' hz' p' hp' hpv =>
    X.edge1 z' p' hp' (by have := hs3.lt hz'; omega) hpv
  have d2 : Dec R' (node A x nil).io := dec_of_chain hc3 fun z' hz' p' hp' =>
    siz_child I.acyc (I.range z' p' hp' (by have := hs3.lt hz'; omega)) hp'
  have k1 := phiR_top hn3 d1
  have k2' := phiR_top hn3 d2
  have hw : phi (wt R' (A.io ++ [x])) A = phi (wt R1 (A.io ++ [x])) A := by
    let R0 : Nat → Nat := fun k => if k = x then 0 else R k
    refine phi_congr fun k hk => ?_
    rw [wt_shift (R := R0) (R' := R') (s := R x) _ hk, wt_shift (R := R0) (R' := R1) (s := 1) _ hk]
    · intro u hu
      by_cases hux : u = x
      · subst hux; simp [R0, hR1]
      · simp [R0, hR1, hux]
    · intro u hu
      by_cases hux : u = x
      · subst hux; simp [R0, hRx]
      · simp only [R0, hux, if_false]
        exact hRA u (by simpa [hux] using hu)
  obtain ⟨z, hz, hz1⟩ : ∃ z, z < N ∧ ∀ R, hdR R (node A x nil).io = R z := by
    cases hl : (node A x nil).io with
    | nil => simp at hl
    | cons z l => exact ⟨z, by have := hs3.lt (show z ∈ _ by rw [hl]; simp); omega, fun _ => rfl⟩
  rw [hz1] at k1 k2'
  have l1 : lg (R' z) ≤ lg (N + 1) := lg_mono (siz_pos hz) ((siz_le _ _ _).trans (Nat.le_succ _))
  have l2 : 0 ≤ lg (R1 z) := lg_nonneg (X.pos1 z hz).1
  have hk : (k0 : ℝ) = 1 := by simpa using f1
  rw [hd1] at t4
  unfold Psi at t4
  rw [hph1] at t4
  have hphi : phiR R nil = 0 := rfl
  push_cast
  rw [hk]
  linarith

/-- `cut` after its `access`; `h4` is any heap with the pointers of the one after the two assignments -/
theorem SInv.cutStep {h h4 : Heap D} {par tr} (I : SInv h par tr) {x c A p} (hx : x < h.size) (ht : tr x = node A x nil)
    (hroot : (node A x nil).io.head?.bind par = none) (hpx : par x = some p) (hc : A.rt = some c)
    (hsz : h4.size = h.size) (h4x : (h4.get x).fa = (h.get x).fa ∧ (h4.get x).ch0 = none ∧ (h4.get x).ch1 = (h.get x).ch1)
    (h4c : (h4.get c).fa = none ∧ (h4.get c).ch0 = (h.get c).ch0 ∧ (h4.get c).ch1 = (h.get c).ch1)
    (h4o : ∀ k, k ≠ x → k ≠ c → SamePtr h h4 k) :
    ∃ tr', SInv h4 (Function.update par x none) tr' ∧
      pot h.size (siz h.size (Function.update par x none)) tr' ≤ pot h.size (siz h.size par) tr := by
  have L := I.loc x hx
  have hch := L.chain
  have hsh := L.shape
  have hnd := L.nodup
  have hsm := L.same
  rw [ht] at hch hsh hnd hsm
  rw [hroot] at hsh
  obtain ⟨s1, s2, s3, s4, s5, s6⟩ := hsh
  have hnd' : (A.io ++ [x]).Nodup := by simpa using hnd
  have hndA : A.io.Nodup := (List.nodup_append.1 hnd').1
  have hxA : x ∉ A.io := fun hm => (List.nodup_append.1 hnd').2.2 x hm x (by simp) rfl
  have hcA : c ∈ A.io := rt_mem hc
  have hcx : c ≠ x := by rintro rfl; exact hxA hcA
  let tr' := fun u => if u = x then node nil x nil else if u ∈ A.io then A else tr u
  have t1 : tr' x = node nil x nil := by simp [tr']
  have t2 : ∀ u ∈ A.io, tr' u = A := fun u hu => by
    have : u ≠ x := by rintro rfl; exact hxA hu
    simp [tr', this, hu]
  have t3 : ∀ u, u ≠ x → u ∉ A.io → tr' u = tr u := fun u hu hu' => by simp [tr', hu, hu']
  set par' := Function.update par x none with hpar'
  have ac' : Acyc par' := acyc_cut I.acyc x
  have hup : ∀ u ∈ A.io, par' u = par u := fun u hu => Function.update_of_ne (by rintro rfl; exact hxA hu) _ _
  refine ⟨tr', ⟨fun v hv => ?_, fun v u hvu hv => ?_, ac'⟩, ?_⟩
  · have hv1 : v < h.size := by omega
    by_cases c1 : v = x
    · subst c1
      constructor <;> rw [t1]
      · simp
      · intro u hu; have : u = v := by simpa using hu
        rw [this, t1]
      · simp
      · simp
      · simp only [io_node, io_nil, List.nil_append, List.head?_cons, Option.bind_some, hpar', Function.update_self]
        exact ⟨hv, by rw [h4x.1, s2], h4x.2.1, by rw [h4x.2.2, s4], trivial, trivial⟩
    by_cases c2 : v ∈ A.io
    · rw [io_node, List.isChain_append] at hch
      have et := t2 v c2
      constructor <;> rw [et]
      · exact c2
      · exact t2
      · exact hndA
      · have := hch.1
        rw [List.isChain_iff_getElem] at this ⊢
        intro i hi
        rw [hup _ (List.getElem_mem _)]
        exact this i hi
      · have e9 : A.io.head?.bind par' = none := by
          cases hl : A.io with
          | nil => rfl
          | cons z l' =>
            have : par z = none := by
              rw [io_node, hl] at hroot; simpa using hroot
            simp [hup z (by simp [hl]), this]
        rw [e9]
        refine s5.reparent hsz (fun k hk => ?_) (fun z hz => ?_) hndA
        · have hkx : k ≠ x := by rintro rfl; exact hxA hk
          by_cases hkc : k = c
          · subst hkc; exact ⟨fun h => absurd hc h, h4c.2.1, h4c.2.2⟩
          · have := h4o k hkx hkc
            exact ⟨fun _ => this.1, this.2.1, this.2.2⟩
        · rw [hc] at hz; cases hz
          exact h4c.1
    · have Lv := I.loc v hv1
      have hd : ∀ u ∈ (tr v).io, u ≠ x ∧ u ∉ A.io := by
        intro u hu
        have : u ∉ (tr x).io := by
          intro hm
          have := I.disj hv1 (v := x) (by omega) hu hm
          have hvm : v ∈ (node A x nil).io := by rw [← ht, ← this]; exact Lv.mem
          rw [io_node, List.mem_append, List.mem_cons] at hvm
          simp at hvm
          tauto
        rw [ht, io_node, List.mem_append, List.mem_cons] at this
        tauto
      exact Lv.congr hsz (fun u hu => t3 u (hd u hu).1 (hd u hu).2)
        (fun u hu => h4o u (hd u hu).1 (by rintro rfl; exact (hd u hu).2 hcA)) (fun u hu => Function.update_of_ne (hd u hu).1 _ _)
  · rw [hsz] at hv ⊢
    by_cases hvx : v = x
    · subst hvx; simp [hpar'] at hvu
    · rw [hpar', Function.update_of_ne hvx] at hvu
      exact I.range v u hvu hv
  · set N := h.size with hN
    set R := siz N par with hR
    set R' := siz N par' with hR'
    have hback : par = Function.update par' x (some p) := by
      funext k
      by_cases hk : k = x
      · subst hk; simp [hpx]
      · rw [Function.update_of_ne hk, hpar', Function.update_of_ne hk]
    have hx' : par' x = none := by simp [hpar']
    have hr : ¬ OnPath par' p x := by
      intro hh
      refine I.acyc x (Relation.TransGen.head' hpx ?_)
      refine Relation.ReflTransGen.mono (fun a b hab => ?_) p x hh
      by_cases hax : a = x
      · subst hax; rw [Up, hx'] at hab; cases hab
      · rw [Up, hpar', Function.update_of_ne hax] at hab; exact hab
    have hlk : ∀ k, (OnPath par' p k → R k = R' k + R' x) ∧ (¬ OnPath par' p k → R k = R' k) := fun k => by
      have := siz_link (N := N) hx' hr k
      rwa [← hback] at this
    have hupp : ∀ u, u ∈ A.io ++ [x] ↔ OnPath par x u := chain_up hch hroot
    have hself : ∀ u, OnPath par' x u → u = x := fun u hu => by
      rcases hu.cases_head with h | ⟨c, hc, -⟩
      · exact h.symm
      · rw [Up, hx'] at hc; cases hc
    have hA : ∀ u, u ≠ x → (u ∈ A.io ↔ OnPath par' p u) := fun u hu => by
      have := hupp u
      rw [hback, onPath_link hx'] at this
      simp only [List.mem_append, List.mem_singleton, hu, or_false] at this
      rw [this]
      exact ⟨fun h => h.elim (fun h => absurd (hself u h) hu) fun h => h.2, fun h => .inr ⟨.refl, h⟩⟩
    have hRx : R x = R' x := (hlk x).2 hr
    have hRA : ∀ u ∈ A.io, R u = R' u + R' x := fun u hu => (hlk u).1 ((hA u (by rintro rfl; exact hxA hu)).1 hu)
    have hRo : ∀ u, u ∉ (node A x nil).io → R' u = R u := fun u hu => by
      have h1 : u ≠ x := by rintro rfl; exact hu (by simp)
      exact ((hlk u).2 fun h => hu (by simp [(hA u h1).2 h])).symm
    have hlt : ∀ u ∈ (node A x nil).io, u < N := fun u hu => by
      have := L.shape.lt (k := u) (by rw [ht]; exact hu)
      exact this
    have rc := pot_recast (N := N) (R := R) (R' := R') (tr := tr) (Q := node A x nil) (fun u hu => ⟨hlt u hu, hsm u hu⟩)
      fun u hu hn k hk => hRo k fun hk' => I.off (v := x) hx (u := u) hu (by rw [ht]; exact hn) k hk (by rw [ht]; exact hk')
    have pc := pot_change (N := N) (R := R') (tr := tr) (tr' := tr') (S := (node A x nil).io.toFinset)
      (fun v hv => hlt v (List.mem_toFinset.1 hv)) fun v _ hv => by
        rw [List.mem_toFinset] at hv
        simp only [io_node, io_nil, List.mem_append, List.mem_cons, List.not_mem_nil, or_false, not_or] at hv
        exact t3 v hv.2 hv.1
    rw [pot_class hsm] at pc
    have hu : (node A x nil).io.toFinset = A.io.toFinset ∪ (node nil x nil).io.toFinset := by ext u; simp
    have hdj : Disjoint A.io.toFinset (node nil x nil).io.toFinset := by
      simpa using hxA
    rw [hu, Finset.sum_union hdj, pot_class t2, pot_class (t := node nil x nil) (by simpa using t1)] at pc
    have d2 : Dec R (node A x nil).io := dec_of_chain hch fun z' hz' p' hp' =>
      siz_child I.acyc (I.range z' p' hp' (hlt z' hz')) hp'
    have k1 := phiR_top hnd d2
    have hw : phi (wt R (A.io ++ [x])) A = phiR R' A := by
      let R0 : Nat → Nat := fun k => if k = x then 0 else R' k
      refine phi_congr fun k hk => ?_
      have h0 : ∀ u ∈ A.io, R0 u = R' u := fun u hm => by
        have : u ≠ x := by rintro rfl; exact hxA hm
        simp [R0, this]
      rw [wt_shift (R := R0) (R' := R) (s := R' x) _ hk]
      · unfold wt
        rw [nxR_last h0 (by simp [R0]) hk, h0 k hk]
      · intro u hu
        by_cases hux : u = x
        · subst hux; simp [R0, hRx]
        · simp only [R0, hux, if_false]
          exact hRA u (by simpa [hux] using hu)
    have hps : phiR R' (node nil x nil) = lg (R' x) := by
      have : wt R' [x] x = R' x := by simp [wt, nxR, hdR]
      simp only [phiR, phi, sz, io_node, io_nil, List.nil_append, this]
      simp
    obtain ⟨z, hz, hz1⟩ : ∃ z ∈ A.io, hdR R (node A x nil).io = R z := by
      cases hl : A.io with
      | nil => rw [hl] at hcA; cases hcA
      | cons z l => exact ⟨z, by simp, by simp [hl, hdR]⟩
    rw [hz1] at k1
    have l1 : lg (R' x) ≤ lg (R z) := lg_mono (siz_pos hx) (by rw [hRA z hz]; omega)
    linarith

end AHO.LCT
