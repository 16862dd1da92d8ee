import Verif.Proof.LCTTree
/-!
# Rotations of auxiliary splay trees
-/

namespace AHO.LCT
open AHO T

variable {D : Type}

/-- Value fields agree at `k`. -/
def SameVal (h h' : Heap D) (k : Nat) : Prop :=
  (h'.get k).val = (h.get k).val ∧ (h'.get k).add = (h.get k).add ∧
  (h'.get k).minV = (h.get k).minV ∧ (h'.get k).minP = (h.get k).minP

@[simp] theorem ch_setCh_self (n : LNode D) (d p) : LNode.ch (LNode.setCh n d p) d = p := by
  cases d <;> rfl
@[simp] theorem ch_setCh_not (n : LNode D) (d p) : LNode.ch (LNode.setCh n d p) (!d) = LNode.ch n (!d) := by
  cases d <;> rfl
@[simp] theorem ch_setCh_not' (n : LNode D) (d p) : LNode.ch (LNode.setCh n (!d) p) d = LNode.ch n d := by
  cases d <;> rfl
@[simp] theorem fa_setCh (n : LNode D) (d p) : (LNode.setCh n d p).fa = n.fa := by
  cases d <;> rfl
@[simp] theorem val_setCh (n : LNode D) (d p) : (LNode.setCh n d p).val = n.val := by
  cases d <;> rfl
@[simp] theorem add_setCh (n : LNode D) (d p) : (LNode.setCh n d p).add = n.add := by
  cases d <;> rfl
@[simp] theorem minV_setCh (n : LNode D) (d p) : (LNode.setCh n d p).minV = n.minV := by
  cases d <;> rfl
@[simp] theorem minP_setCh (n : LNode D) (d p) : (LNode.setCh n d p).minP = n.minP := by
  cases d <;> rfl
@[simp] theorem ch_fa (n : LNode D) (d f) : LNode.ch { n with fa := f } d = LNode.ch n d := by
  cases d <;> rfl

/-- the heap after `setc` -/
def setcH (h : Heap D) (x : Nat) (p : Option Nat) (d : Bool) : Heap D :=
  let h1 := h.set x (LNode.setCh (h.get x) d p)
  match p with
  | none => h1
  | some c => h1.set c { h1.get c with fa := some x }

theorem setc_ok {h : Heap D} {x p d} (hx : x < h.size) (hp : ∀ c, p = some c → c < h.size) :
    setc h x p d = .ok (setcH h x p d) := by
  unfold setc setcH
  rw [Vec.rd_ok hx]
  simp only [ok_bind]
  rw [Vec.wr_ok _ hx]
  cases p with
  | none => simp
  | some c =>
    have := hp c rfl
    simp only [ok_bind]
    rw [Vec.rd_ok (by simpa), ok_bind, Vec.wr_ok _ (by simpa)]

@[simp] theorem setcH_size (h : Heap D) (x p d) : (setcH h x p d).size = h.size := by
  unfold setcH; cases p <;> simp

theorem setcH_get (h : Heap D) (x p d k) (hxp : p ≠ some x) : (setcH h x p d).get k =
    if k = x then LNode.setCh (h.get x) d p
    else if some k = p then { h.get k with fa := some x } else h.get k := by
  unfold setcH
  cases p with
  | none => simp [Vec.set_get]
  | some c =>
    have : x ≠ c := by rintro rfl; simp at hxp
    simp only [Vec.set_get, Option.some.injEq]
    grind

section
variable [LT D] [LE D] [DecidableLT D] [DecidableLE D]

/-- `rot` without `push_up`: the nodes and the old parent -/
def rotPre (h : Heap D) (x : Nat) : Res (Heap D × Nat) := do
  let nx ← h.rd x
  let f ← deref nx.fa
  let nf ← h.rd f
  let ff := nf.fa
  let c ← dir h x
  let cc ← match ff with
    | none => .ok false
    | some _ => dir h f
  let h ← setc h f (LNode.ch nx (!c)) c
  let h ← setc h x (some f) (!c)
  let h ← match ff with
    | none => do
      let n ← h.rd x
      h.wr x { n with fa := none }
    | some g => do
      let ng ← h.rd g
      if LNode.ch ng cc = some f then setc h g (some x) cc
      else do
        let n ← h.rd x
        h.wr x { n with fa := some g }
  .ok (h, f)

theorem rot_eq (h : Heap D) (x : Nat) : rot h x = rotPre h x >>= fun p => pushUp p.1 p.2 := by
  unfold rot rotPre
  simp only [bind_assoc]
  refine congrArg _ (funext fun nx => congrArg _ (funext fun f => congrArg _ (funext fun nf => congrArg _ (funext fun c => ?_))))
  cases nf.fa with
  | none => simp only [bind_assoc, ok_bind]
  | some g =>
    simp only [bind_assoc]
    refine congrArg _ (funext fun cc => congrArg _ (funext fun h1 => congrArg _ (funext fun h2 => congrArg _ (funext fun ng => ?_))))
    by_cases hc : LNode.ch ng cc = some f
    · simp only [hc, if_true, bind_assoc, ok_bind]
    · simp only [hc, if_false, bind_assoc, ok_bind]

theorem rot_struct {h : Heap D} {d a x b f s c F}
    (hs : Shape h (plug (nd d (nd d a x b) f s) c) F)
    (hn : (plug (nd d (nd d a x b) f s) c).io.Nodup)
    (hr : RootOK h (plug (nd d (nd d a x b) f s) c) F) :
    ∃ h1, rot h x = pushUp h1 f ∧ h1.size = h.size ∧
      Shape h1 (plug (nd d a x (nd d b f s)) c) F ∧
      (∀ k, k ∉ (plug (nd d (nd d a x b) f s) c).io → h1.get k = h.get k) ∧
      (∀ k, SameVal h h1 k) ∧ rotPre h x = .ok (h1, f) := by
  have hs0 := hs
  rw [shape_plug, shape_nd, shape_nd] at hs
  obtain ⟨⟨f1, f2, f3, f4, ⟨x1, x2, x3, x4, sa, sb⟩, ss⟩, hc⟩ := hs
  have hnn := nodup_of_plug hn
  have hdis := @disj_of_plug c _ hn
  -- distinctness
  have nxf : x ≠ f := by cases d <;> simp [List.nodup_append] at hnn <;> grind
  have nxa : x ∉ a.io := by cases d <;> simp [List.nodup_append] at hnn <;> grind
  have nxb : x ∉ b.io := by cases d <;> simp [List.nodup_append] at hnn <;> grind
  have nxs : x ∉ s.io := by cases d <;> simp [List.nodup_append] at hnn <;> grind
  have nfa : f ∉ a.io := by cases d <;> simp [List.nodup_append] at hnn <;> grind
  have nfb : f ∉ b.io := by cases d <;> simp [List.nodup_append] at hnn <;> grind
  have nfs : f ∉ s.io := by cases d <;> simp [List.nodup_append] at hnn <;> grind
  have nab : ∀ k ∈ a.io, k ∉ b.io := by cases d <;> simp [List.nodup_append] at hnn <;> grind
  have nas : ∀ k ∈ a.io, k ∉ s.io := by cases d <;> simp [List.nodup_append] at hnn <;> grind
  have nbs : ∀ k ∈ b.io, k ∉ s.io := by cases d <;> simp [List.nodup_append] at hnn <;> grind
  have nb : b.io.Nodup := by cases d <;> simp [List.nodup_append] at hnn <;> tauto
  have hbrt : b.rt ≠ some f := fun e => nfb (rt_mem e)
  have hbrx : b.rt ≠ some x := fun e => nxb (rt_mem e)
  have hdir : dir h x = .ok d := dir_ctx (t := nd d a x b) (c := c) (F := F) (s := s) (y := f)
    hs0 (by simp) hn
  -- the heap after the two setc
  set hA := setcH h f b.rt d with hAdef
  set hB := setcH hA x (some f) (!d) with hBdef
  have hAok : setc h f b.rt d = .ok hA := setc_ok f1 (fun c' e => sb.lt (rt_mem e))
  have hBok : setc hA x (some f) (!d) = .ok hB :=
    setc_ok (by simpa [hAdef]) (fun c' e => by cases e; simpa [hAdef])
  have hAget := fun k => setcH_get h f b.rt d k hbrt
  have hBget := fun k => setcH_get hA x (some f) (!d) k (by simpa using nxf.symm)
  have hAsz : hA.size = h.size := setcH_size ..
  have hBsz : hB.size = h.size := by rw [hBdef, setcH_size, hAsz]
  -- common values
  have hBx : hB.get x = LNode.setCh (h.get x) (!d) (some f) := by
    rw [hBget, if_pos rfl, hAget, if_neg nxf, if_neg (fun e => hbrx e.symm)]
  have hBf : hB.get f = { LNode.setCh (h.get f) d b.rt with fa := some x } := by
    rw [hBget, if_neg nxf.symm, if_pos rfl, hAget, if_pos rfl]
  have hBo : ∀ k, k ≠ x → k ≠ f → b.rt ≠ some k → hB.get k = h.get k := by
    intro k k1 k2 k3
    rw [hBget, if_neg k1, if_neg (by simpa using k2), hAget, if_neg k2, if_neg (fun e => k3 e.symm)]
  have hBb : ∀ k, b.rt = some k → hB.get k = { h.get k with fa := some f } := by
    intro k hk
    have k1 : k ≠ x := by rintro rfl; exact hbrx hk
    have k2 : k ≠ f := by rintro rfl; exact hbrt hk
    rw [hBget, if_neg k1, if_neg (by simpa using k2), hAget, if_neg k2, if_pos hk.symm]
  -- it suffices to describe the last heap
  suffices H : ∃ h1, rotPre h x = .ok (h1, f) ∧ h1.size = h.size ∧
      (h1.get x = { LNode.setCh (h.get x) (!d) (some f) with fa := ctxPar c F }) ∧
      (∀ d' y s' c', c = (d', y, s') :: c' → h1.get y = LNode.setCh (h.get y) d' (some x)) ∧
      (∀ k, k ≠ x → (∀ d' y s' c', c = (d', y, s') :: c' → k ≠ y) → h1.get k = hB.get k) by
    obtain ⟨h1, e1, e2, e3, e4, e5⟩ := H
    have hcy : ∀ k, k ∈ (nd d (nd d a x b) f s).io →
        ∀ d' y s' c', c = (d', y, s') :: c' → k ≠ y := by
      intro k hk d' y s' c' e
      subst e
      exact (hdis hk (List.mem_cons_self)).1
    have ef : h1.get f = { LNode.setCh (h.get f) d b.rt with fa := some x } := by
      rw [e5 f nxf.symm (hcy f (by simp [mem_io_nd])), hBf]
    have eo : ∀ k, k ≠ x → k ≠ f → b.rt ≠ some k →
        (∀ d' y s' c', c = (d', y, s') :: c' → k ≠ y) → h1.get k = h.get k := by
      intro k k1 k2 k3 k4
      rw [e5 k k1 k4, hBo k k1 k2 k3]
    have eb : ∀ k, b.rt = some k → h1.get k = { h.get k with fa := some f } := by
      intro k hk
      have hm := rt_mem hk
      rw [e5 k (by rintro rfl; exact hbrx hk) (hcy k (by simp [mem_io_nd, hm])), hBb k hk]
    refine ⟨h1, by rw [rot_eq, e1, ok_bind], e2, ?_, ?_, ?_, e1⟩
    · rw [shape_plug, shape_nd, shape_nd]
      refine ⟨⟨by omega, ?_, ?_, ?_, ?_, ⟨by omega, ?_, ?_, ?_, ?_, ?_⟩⟩, ?_⟩
      · rw [e3]
      · rw [e3, ch_fa]; simp [x3]
      · rw [e3, ch_fa]; simp
      · refine sa.congr e2 fun k hk => ?_
        have : h1.get k = h.get k := eo k (by rintro rfl; exact nxa hk) (by rintro rfl; exact nfa hk)
          (fun e => nab k hk (rt_mem e)) (hcy k (by simp [mem_io_nd, hk]))
        simp [SamePtr, this]
      · rw [ef]
      · rw [ef, ch_fa]; simp
      · rw [ef, ch_fa]; simp [f4]
      · refine sb.reparent e2 (fun k hk => ?_) (fun k hk => by rw [eb k hk]) nb
        by_cases hk' : b.rt = some k
        · rw [eb k hk']; simp [hk']
        · have : h1.get k = h.get k := eo k (by rintro rfl; exact nxb hk)
            (by rintro rfl; exact nfb hk) hk' (hcy k (by simp [mem_io_nd, hk]))
          simp [this]
      · refine ss.congr e2 fun k hk => ?_
        have : h1.get k = h.get k := eo k (by rintro rfl; exact nxs hk) (by rintro rfl; exact nfs hk)
          (fun e => nbs k (rt_mem e) hk) (hcy k (by simp [mem_io_nd, hk]))
        simp [SamePtr, this]
      · -- the context
        cases c with
        | nil => trivial
        | cons fr c' =>
          obtain ⟨d', y, s'⟩ := fr
          obtain ⟨y1, y2, y3, y4, y5, y6⟩ := hc
          have ey := e4 d' y s' c' rfl
          have hny : ∀ k, (k = y ∨ k ∈ s'.io) ∨ (∃ d y s, (d, y, s) ∈ c' ∧ (k = y ∨ k ∈ s.io)) →
              k ∉ (nd d (nd d a x b) f s).io := by
            rintro k ((hk | hk) | ⟨d2, y2, s2, hm, hk⟩) hk'
            · exact (hdis hk' (List.mem_cons_self)).1 hk
            · exact (hdis hk' (List.mem_cons_self)).2 hk
            · have := hdis hk' (List.mem_cons_of_mem _ hm)
              rcases hk with hk | hk
              · exact this.1 hk
              · exact this.2 hk
          have hy : ∀ k, (k ∈ s'.io ∨ (∃ d y s, (d, y, s) ∈ c' ∧ (k = y ∨ k ∈ s.io))) → k ≠ y →
              SamePtr h h1 k := by
            intro k hk hky
            have hk' := hny k (hk.elim (fun h => .inl (.inr h)) .inr)
            have : h1.get k = h.get k := eo k (by rintro rfl; simp [mem_io_nd] at hk')
              (by rintro rfl; simp [mem_io_nd] at hk')
              (fun e => hk' (by simp [mem_io_nd, rt_mem e]))
              (by intro d2 y2 s2 c2 e; cases e; exact hky)
            simp [SamePtr, this]
          have hn2 : (nd d' (nd d (nd d a x b) f s) y s').io.Nodup := nodup_of_plug (c := c') hn
          have hys : y ∉ s'.io := by cases d' <;> simp [List.nodup_append] at hn2 <;> grind
          refine ⟨by omega, by rw [ey]; simp [y2], by rw [ey]; simp, by rw [ey]; simp [y4], ?_, ?_⟩
          · exact y5.congr e2 fun k hk => hy k (.inl hk) (by rintro rfl; exact hys hk)
          · refine y6.congr e2 fun d2 y2 s2 hm => ?_
            have hd := @disj_of_plug c' _ hn y (by simp [mem_io_nd]) d2 y2 s2 hm
            exact ⟨hy _ (.inr ⟨d2, y2, s2, hm, .inl rfl⟩) hd.1.symm, fun k hk =>
              hy _ (.inr ⟨d2, y2, s2, hm, .inr hk⟩) (by rintro rfl; exact hd.2 hk)⟩
    · intro k hk
      rw [mem_plug] at hk
      push Not at hk
      obtain ⟨hk1, hk2⟩ := hk
      refine eo k (by rintro rfl; simp [mem_io_nd] at hk1) (by rintro rfl; simp [mem_io_nd] at hk1)
        (fun e => hk1 (by simp [mem_io_nd, rt_mem e])) ?_
      intro d2 y2 s2 c2 e
      subst e
      exact (hk2 d2 y2 s2 (by simp)).1
    · intro k
      by_cases k1 : k = x
      · subst k1; rw [SameVal, e3]; simp
      by_cases k2 : k = f
      · subst k2; rw [SameVal, ef]; simp
      by_cases k3 : b.rt = some k
      · rw [SameVal, eb k k3]; simp
      by_cases k4 : ∀ d' y s' c', c = (d', y, s') :: c' → k ≠ y
      · rw [SameVal, eo k k1 k2 k3 k4]; simp
      · push Not at k4
        obtain ⟨d', y, s', c', e, rfl⟩ := k4
        rw [SameVal, e4 _ _ _ _ e]; simp
  -- compute
  unfold rotPre
  rw [Vec.rd_ok x1]
  simp only [ok_bind, x2, deref, Vec.rd_ok f1, hdir, x4]
  cases c with
  | nil =>
    simp only [ctxPar] at f2 ⊢
    rw [f2]
    cases F with
    | none =>
      simp only [ok_bind, hAok, hBok, Vec.rd_ok (show x < hB.size by omega),
        Vec.wr_ok _ (show x < hB.size by omega)]
      refine ⟨_, rfl, by simp [hBsz], ?_, by simp, ?_⟩
      · simp [hBx]
      · intro k hk _; rw [Vec.set_get_ne _ _ hk]
    | some g =>
      obtain ⟨g1, g2, g3⟩ := hr g rfl
      have gf := g3 f (by simp [mem_io_nd])
      have ngx : g ≠ x := by rintro rfl; exact g2 (by simp [mem_io_nd])
      have ngf : g ≠ f := by rintro rfl; exact g2 (by simp [mem_io_nd])
      have ngb : b.rt ≠ some g := fun e => g2 (by simp [mem_io_nd, rt_mem e])
      have hdf : dir h f = .ok false := by
        simp [dir, Vec.rd_ok f1, f2, deref, Vec.rd_ok g1, gf.2]
      simp only [ok_bind, hdf, hAok, hBok, Vec.rd_ok (show g < hB.size by omega),
        Vec.rd_ok (show x < hB.size by omega), Vec.wr_ok _ (show x < hB.size by omega)]
      have hg : LNode.ch (hB.get g) false ≠ some f := by
        rw [hBo g ngx ngf ngb]; exact gf.1
      rw [if_neg hg]
      refine ⟨_, rfl, by simp [hBsz], ?_, by simp, ?_⟩
      · simp [hBx]
      · intro k hk _; rw [Vec.set_get_ne _ _ hk]
  | cons fr c' =>
    obtain ⟨d', y, s'⟩ := fr
    obtain ⟨y1, y2, y3, y4, y5, y6⟩ := hc
    have ny := fun k hk => (@hdis k hk d' y s' (by simp)).1
    have nyx : y ≠ x := (ny x (by simp [mem_io_nd])).symm
    have nyf : y ≠ f := (ny f (by simp [mem_io_nd])).symm
    have nyb : b.rt ≠ some y := fun e => ny y (by simp [mem_io_nd, rt_mem e]) rfl
    have hdf : dir h f = .ok d' := dir_ctx (t := nd d (nd d a x b) f s) (c := c') (F := F) (s := s') (y := y)
      hs0 (by simp) hn
    simp only [ctxPar] at f2 ⊢
    rw [f2]
    have hyB : hB.get y = h.get y := hBo y nyx nyf nyb
    have hg : LNode.ch (hB.get y) d' = some f := by
      rw [hyB, y3]; simp
    simp only [ok_bind, hdf, hAok, hBok, Vec.rd_ok (show y < hB.size by omega), if_pos hg]
    rw [setc_ok (by omega) (by simpa [hBsz] using x1)]
    have hget := fun k => setcH_get hB y (some x) d' k (by simpa using nyx.symm)
    refine ⟨setcH hB y (some x) d', rfl, by simp [hBsz], ?_, ?_, ?_⟩
    · rw [hget, if_neg nyx.symm, if_pos rfl, hBx]
    · intro d2 y2 s2 c2 e
      cases e
      rw [hget, if_pos rfl, hyB]
    · intro k hk hk2
      rw [hget, if_neg (hk2 _ _ _ _ rfl), if_neg (by simpa using hk)]

end
end AHO.LCT
