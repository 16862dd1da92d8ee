import Verif.Model.LCTCost
import Verif.Proof.LCTAccess
import Verif.Proof.LCTPot
/-!
# Structure of the link-cut tree, values left aside

What every operation, when it returns, did to the pointers, how many steps it took, and how the potential changed.
-/

namespace AHO.LCT
open AHO T
set_option linter.unusedSectionVars false

variable {D : Type} [Add D] [Zero D] [BEq D] [LT D] [LE D] [DecidableLT D] [DecidableLE D]

/-- same nodes, same pointers -/
def Ptrs (h h' : Heap D) : Prop := h'.size = h.size ∧ ∀ k, SamePtr h h' k

theorem SamePtr.refl (h : Heap D) (k : Nat) : SamePtr h h k := ⟨rfl, rfl, rfl⟩

theorem SamePtr.trans {h1 h2 h3 : Heap D} {k : Nat} (a : SamePtr h1 h2 k) (b : SamePtr h2 h3 k) : SamePtr h1 h3 k :=
  ⟨b.1.trans a.1, b.2.1.trans a.2.1, b.2.2.trans a.2.2⟩

theorem Ptrs.refl (h : Heap D) : Ptrs h h := ⟨rfl, fun k => .refl h k⟩

theorem Ptrs.trans {h1 h2 h3 : Heap D} (a : Ptrs h1 h2) (b : Ptrs h2 h3) : Ptrs h1 h3 :=
  ⟨b.1.trans a.1, fun k => (a.2 k).trans (b.2 k)⟩

theorem Ptrs.wr {h h' : Heap D} {x : Nat} {n : LNode D} (hx : x < h.size) (e : h.wr x n = .ok h')
    (hn : n.fa = (h.get x).fa ∧ n.ch0 = (h.get x).ch0 ∧ n.ch1 = (h.get x).ch1) : Ptrs h h' := by
  rw [Vec.wr_ok _ hx] at e
  cases e
  refine ⟨rfl, fun k => ?_⟩
  by_cases hk : k = x
  · subst hk; simpa [SamePtr, Vec.set_get] using hn
  · simp [SamePtr, Vec.set_get, hk]

theorem bind_ok {α β : Type} {x : Res α} {f : α → Res β} {b : β} (h : (x >>= f) = .ok b) : ∃ a, x = .ok a ∧ f a = .ok b := by
  cases x with
  | error e => cases h
  | ok a => exact ⟨a, rfl, h⟩

theorem rd_inv {h : Heap D} {x : Nat} {n : LNode D} (e : h.rd x = .ok n) : x < h.size ∧ n = h.get x := by
  unfold Vec.rd at e
  split at e
  · next hx => cases e; exact ⟨hx, rfl⟩
  · cases e

theorem pushUp_ptrs {h h' : Heap D} {x : Nat} (e : pushUp h x = .ok h') : Ptrs h h' := by
  unfold pushUp at e
  obtain ⟨n, e1, e⟩ := bind_ok e
  obtain ⟨hx, rfl⟩ := rd_inv e1
  have key : ∀ {n : LNode D}, h.wr x n = .ok h' → n.fa = (h.get x).fa → n.ch0 = (h.get x).ch0 → n.ch1 = (h.get x).ch1 →
      Ptrs h h' := fun e h1 h2 h3 => Ptrs.wr hx e ⟨h1, h2, h3⟩
  cases hc0 : (h.get x).ch0 with
  | none =>
    cases hc1 : (h.get x).ch1 with
    | none =>
      simp only [hc0, hc1, ok_bind] at e
      exact key e rfl hc0.symm hc1.symm
    | some c =>
      simp only [hc0, hc1, ok_bind] at e
      obtain ⟨nc, -, e⟩ := bind_ok e
      exact key e rfl hc0.symm hc1.symm
  | some c =>
    cases hc1 : (h.get x).ch1 with
    | none =>
      simp only [hc0, hc1, ok_bind] at e
      obtain ⟨nc, -, e⟩ := bind_ok e
      exact key e rfl hc0.symm hc1.symm
    | some c =>
      simp only [hc0, hc1, ok_bind] at e
      obtain ⟨nc, -, e⟩ := bind_ok e
      obtain ⟨nc2, -, e⟩ := bind_ok e
      exact key e rfl hc0.symm hc1.symm

theorem updateAdd_ptrs {h h' : Heap D} {x : Nat} {w : D} (e : updateAdd h x w = .ok h') : Ptrs h h' := by
  unfold updateAdd at e
  obtain ⟨n, e1, e⟩ := bind_ok e
  obtain ⟨hx, rfl⟩ := rd_inv e1
  exact Ptrs.wr hx e ⟨rfl, rfl, rfl⟩

theorem pushDown_ptrs {h h' : Heap D} {x : Nat} (e : pushDown h x = .ok h') : Ptrs h h' := by
  unfold pushDown at e
  obtain ⟨n, e1, e⟩ := bind_ok e
  cases hb : !(n.add == 0) with
  | false => rw [hb] at e; cases e; exact .refl _
  | true =>
    rw [hb] at e
    have key : ∀ h2 : Heap D, (do let n ← h2.rd x; h2.wr x { n with add := 0 }) = .ok h' → Ptrs h2 h' := by
      intro h2 e
      obtain ⟨n2, f3, e⟩ := bind_ok e
      obtain ⟨hx, rfl⟩ := rd_inv f3
      exact Ptrs.wr hx e ⟨rfl, rfl, rfl⟩
    have key2 : ∀ h1 : Heap D, (show Res (Heap D) from do
        let h2 ← match n.ch1 with
          | none => .ok h1
          | some c => updateAdd h1 c n.add
        let n ← h2.rd x
        h2.wr x { n with add := 0 }) = .ok h' → Ptrs h1 h' := by
      intro h1 e
      cases hc : n.ch1 with
      | none => rw [hc] at e; exact key _ e
      | some c =>
        rw [hc] at e
        obtain ⟨h2, f2, e⟩ := bind_ok e
        exact (updateAdd_ptrs f2).trans (key _ e)
    cases hc : n.ch0 with
    | none => rw [hc] at e; exact key2 _ e
    | some c =>
      rw [hc] at e
      obtain ⟨h2, f2, e⟩ := bind_ok e
      exact (updateAdd_ptrs f2).trans (key2 _ e)

theorem Shape.ptrs {h h' : Heap D} {t f} (hs : Shape h t f) (p : Ptrs h h') : Shape h' t f := hs.congr p.1 fun k _ => p.2 k

theorem RootOK.ptr {h h' : Heap D} {t t' F} (hr : RootOK h t F) (hsz : h'.size = h.size) (hio : ∀ k, k ∈ t'.io ↔ k ∈ t.io)
    (hk : ∀ k, k ∉ t.io → SamePtr h h' k) : RootOK h' t' F := by
  intro g hg
  obtain ⟨h1, h2, h3⟩ := hr g hg
  refine ⟨by omega, by rwa [hio], fun z hz => ?_⟩
  rw [(hk g h2).2.1, (hk g h2).2.2]
  exact h3 z ((hio z).1 hz)

/-- `push_down_from_root` calls itself once for every node on the way to the root of the auxiliary tree -/
theorem pushDownFromRootC_struct {F} : ∀ (fuel : Nat) (c : List (Bool × Nat × T)) (h : Heap D) (a x b k h'),
    Shape h (plug (node a x b) c) F → RootOK h (plug (node a x b) c) F →
    pushDownFromRootC fuel h x = .ok (k, h') → k = c.length + 1 ∧ Ptrs h h' := by
  intro fuel
  induction fuel with
  | zero => intro c h a x b k h' hs hr e; cases e
  | succ fuel ih =>
    intro c h a x b k h' hs hr e
    have hroot := isRoot_ctx hs hr
    rw [pushDownFromRootC, hroot, ok_bind] at e
    cases c with
    | nil =>
      simp only [List.isEmpty_nil, Bool.not_true, Bool.false_eq_true, if_false, ok_bind] at e
      obtain ⟨h2, e2, e⟩ := bind_ok e
      cases e
      exact ⟨rfl, pushDown_ptrs e2⟩
    | cons fr c =>
      obtain ⟨d, y, s⟩ := fr
      simp only [List.isEmpty_cons, Bool.not_false, if_true] at e
      obtain ⟨n, f1, e⟩ := bind_ok e
      obtain ⟨hx, rfl⟩ := rd_inv f1
      have hfa : (h.get x).fa = some y := (shape_plug.1 hs).1.2.1
      rw [hfa] at e
      simp only [deref, ok_bind] at e
      obtain ⟨⟨k1, h1⟩, e1, e⟩ := bind_ok e
      obtain ⟨h2, e2, e⟩ := bind_ok e
      cases e
      obtain ⟨py, qy, hpy⟩ : ∃ p q, nd d (node a x b) y s = node p y q := by cases d <;> exact ⟨_, _, rfl⟩
      obtain ⟨g1, g2⟩ := ih c h py y qy k1 h1 (by rw [← hpy]; exact hs) (by rw [← hpy]; exact hr) e1
      exact ⟨by simp [g1], g2.trans (pushDown_ptrs e2)⟩

theorem rot_shape {h h' : Heap D} {d a x b f s c F}
    (hs : Shape h (plug (nd d (nd d a x b) f s) c) F)
    (hn : (plug (nd d (nd d a x b) f s) c).io.Nodup)
    (hr : RootOK h (plug (nd d (nd d a x b) f s) c) F) (e : rot h x = .ok h') :
    h'.size = h.size ∧ Shape h' (plug (nd d a x (nd d b f s)) c) F ∧
      (plug (nd d a x (nd d b f s)) c).io = (plug (nd d (nd d a x b) f s) c).io ∧
      RootOK h' (plug (nd d a x (nd d b f s)) c) F ∧
      (∀ k, k ∉ (plug (nd d (nd d a x b) f s) c).io → SamePtr h h' k) := by
  obtain ⟨h1, e1, e2, e3, e4, -⟩ := rot_struct hs hn hr
  rw [e1] at e
  have p := pushUp_ptrs e
  have hio : (plug (nd d a x (nd d b f s)) c).io = (plug (nd d (nd d a x b) f s) c).io :=
    io_plug_congr (by cases d <;> simp) c
  have hfr : ∀ k, k ∉ (plug (nd d (nd d a x b) f s) c).io → SamePtr h h' k := fun k hk => by
    have := p.2 k
    simp only [SamePtr, e4 k hk] at this ⊢
    exact this
  exact ⟨by rw [p.1, e2], e3.ptrs p, hio, hr.ptr (by rw [p.1, e2]) (fun k => by rw [hio]) hfr, hfr⟩

set_option maxHeartbeats 1000000 in
/-- The loop of `splay`: as many rotations as the depth of the node, and their amortised number. -/
theorem splayLoopC_struct {F x} : ∀ (n : Nat) (c : List (Bool × Nat × T)) (fuel : Nat) (h : Heap D) (a b) (m0 m : Nat) (h' : Heap D),
    c.length ≤ n → Shape h (plug (node a x b) c) F → (plug (node a x b) c).io.Nodup → RootOK h (plug (node a x b) c) F →
    whileLoop (fun s : Nat × Heap D => do let r ← isRoot s.2 x; .ok (!r))
      (fun s => do let (k, h) ← splayStepC s.2 x; .ok (s.1 + k, h)) fuel (m0, h) = .ok (m, h') →
    ∃ a' b', m = m0 + c.length ∧ h'.size = h.size ∧ (node a' x b').io = (plug (node a x b) c).io ∧ Shape h' (node a' x b') F ∧
      (∀ k, k ∉ (plug (node a x b) c).io → SamePtr h h' k) ∧
      ((c = [] → node a' x b' = node a x b) ∧ ∀ y s, c = [(true, y, s)] → node a' x b' = node (node s y a) x b) ∧
      ∀ W : Nat → Nat, (∀ k ∈ (plug (node a x b) c).io, 1 ≤ W k) →
        (c.length : ℝ) + phi W (node a' x b') ≤ phi W (plug (node a x b) c) +
            3 * (lg (sz W (plug (node a x b) c)) - lg (sz W (node a x b))) + 1 ∧
        phi W (node a' x b') ≤ phi W (plug (node a x b) c) + 3 * (lg (sz W (plug (node a x b) c)) - lg (sz W (node a x b))) := by
  intro n
  induction n with
  | zero =>
    intro c fuel h a b m0 m h' hc hs hn hr e
    have : c = [] := by cases c <;> simp_all
    subst this
    cases fuel with
    | zero => cases e
    | succ fuel =>
      simp only [whileLoop, isRoot_ctx hs hr, ok_bind, List.isEmpty_nil, Bool.not_true] at e
      cases e
      exact ⟨a, b, rfl, rfl, rfl, hs, fun k _ => .refl h k, ⟨fun _ => rfl, by simp⟩, fun W hW => by simp⟩
  | succ n ih =>
    intro c fuel h a b m0 m h' hc hs hn hr e
    have hroot := isRoot_ctx hs hr
    have hx1 : x < h.size := hs.lt (by rw [mem_plug]; simp)
    cases fuel with
    | zero => cases e
    | succ fuel =>
    cases c with
    | nil =>
      simp only [whileLoop, hroot, ok_bind, List.isEmpty_nil, Bool.not_true] at e
      cases e
      exact ⟨a, b, rfl, rfl, rfl, hs, fun k _ => .refl h k, ⟨fun _ => rfl, by simp⟩, fun W hW => by simp⟩
    | cons fr c =>
      obtain ⟨d, y, s⟩ := fr
      have hfa : (h.get x).fa = some y := (shape_plug.1 hs).1.2.1
      simp only [whileLoop, hroot, ok_bind, List.isEmpty_cons, Bool.not_false, bind_assoc] at e
      obtain ⟨⟨k1, h1⟩, e1, e⟩ := bind_ok e
      -- it suffices to describe one step
      suffices H : ∃ a1 b1 c1, (c = [] → d = true → node a1 x b1 = node (node s y a) x b) ∧ h1.size = h.size ∧ k1 + c1.length = c.length + 1 ∧ 1 ≤ k1 ∧
          (plug (node a1 x b1) c1).io = (plug (node a x b) ((d, y, s) :: c)).io ∧
          Shape h1 (plug (node a1 x b1) c1) F ∧ RootOK h1 (plug (node a1 x b1) c1) F ∧
          (∀ k, k ∉ (plug (node a x b) ((d, y, s) :: c)).io → SamePtr h h1 k) ∧
          ∀ W : Nat → Nat, (∀ k ∈ (plug (node a x b) ((d, y, s) :: c)).io, 1 ≤ W k) →
            sz W (plug (node a1 x b1) c1) = sz W (plug (node a x b) ((d, y, s) :: c)) ∧
            (phi W (plug (node a1 x b1) c1) + k1 ≤ phi W (plug (node a x b) ((d, y, s) :: c)) +
              3 * (lg (sz W (node a1 x b1)) - lg (sz W (node a x b))) ∨
            (c1 = [] ∧ k1 = 1 ∧ phi W (plug (node a1 x b1) c1) ≤ phi W (plug (node a x b) ((d, y, s) :: c)) +
              3 * (lg (sz W (node a1 x b1)) - lg (sz W (node a x b))))) by
        obtain ⟨a1, b1, c1, s0, s2, s3, s3', s4, s5, s6, s10, s11⟩ := H
        simp only [List.length_cons] at hc
        obtain ⟨a2, b2, t1, t2, t3, t4, t5, t5', t6⟩ := ih c1 fuel h1 a1 b1 (m0 + k1) m h' (by omega) s5
          (by rw [s4]; exact hn) s6 e
        refine ⟨a2, b2, by simp only [List.length_cons]; omega, by omega, by rw [t3, s4], t4, ?_, ⟨by simp, fun y' s' hc' => ?_⟩, fun W hW => ?_⟩
        · intro k hk; exact (s10 k hk).trans (t5 k (by rwa [s4]))
        · obtain ⟨⟨rfl, rfl, rfl⟩, rfl⟩ : (d = true ∧ y = y' ∧ s = s') ∧ c = [] := by simpa using hc'
          have : c1 = [] := List.length_eq_zero_iff.1 (by simp only [List.length_nil] at s3; omega)
          rw [t5'.1 this]
          exact s0 rfl rfl
        · obtain ⟨u1, u2⟩ := s11 W hW
          obtain ⟨v1, v2⟩ := t6 W (by rw [s4]; exact hW)
          rw [u1] at v1 v2
          have hlen : ((c.length : ℝ) + 1) = (k1 : ℝ) + c1.length := by exact_mod_cast s3.symm
          have hk0 : (0 : ℝ) ≤ k1 := by positivity
          simp only [List.length_cons]
          push_cast
          rcases u2 with u2 | ⟨u3, u4, u2⟩
          · constructor <;> linarith
          · have he := t5'.1 u3
            subst u3
            rw [he]
            simp only [plug_nil, List.length_nil] at u1 u2 v1 v2 hlen ⊢
            rw [u1] at u2
            subst u4
            push_cast at hlen
            constructor <;> linarith
      -- the parent in focus
      obtain ⟨py, qy, hpy⟩ : ∃ p q, nd d (node a x b) y s = node p y q := by
        cases d <;> exact ⟨_, _, rfl⟩
      have hrooty : isRoot h y = .ok c.isEmpty := by
        apply isRoot_ctx (a := py) (b := qy) (F := F)
        · rw [← hpy]; exact hs
        · rw [← hpy]; exact hr
      have hdx : dir h x = .ok d := dir_ctx (t := node a x b) hs rfl hn
      have orient : ∀ d : Bool, ∃ ad bd, node a x b = nd d ad x bd := by
        intro d; cases d <;> exact ⟨_, _, rfl⟩
      have unorient : ∀ (d : Bool) (p q : T) (z : Nat), ∃ a' b', nd d p z q = node a' z b' := by
        intro d p q z; cases d <;> exact ⟨_, _, rfl⟩
      have hWx : ∀ W : Nat → Nat, (∀ k ∈ (plug (node a x b) ((d, y, s) :: c)).io, 1 ≤ W k) → 1 ≤ W x ∧ 1 ≤ W y :=
        fun W hW => ⟨hW x (by rw [mem_plug]; simp), hW y (by rw [mem_plug]; exact .inr ⟨d, y, s, by simp, .inl rfl⟩)⟩
      unfold splayStepC at e1
      rw [Vec.rd_ok hx1, ok_bind, hfa] at e1
      simp only [deref, ok_bind, hrooty] at e1
      cases c with
      | nil =>
        -- zig
        simp only [List.isEmpty_nil, Bool.not_true, Bool.false_eq_true, if_false, ok_bind] at e1
        obtain ⟨h2, e2, e3⟩ := bind_ok e1
        cases e3
        obtain ⟨ad, bd, hab⟩ := orient d
        rw [hab, plug_cons] at hs hn hr
        obtain ⟨r2, r3, r4, r5, r6⟩ := rot_shape hs hn hr e2
        obtain ⟨a', b', u1⟩ := unorient d ad (nd d bd y s) x
        refine ⟨a', b', [], ?_, r2, by simp, by simp, ?_, ?_, ?_, ?_, fun W hW => ?_⟩
        · rintro - rfl
          rw [← u1]
          simp only [nd_true] at hab ⊢
          injection hab with i1 _ i2
          rw [i1, i2]
        · rw [← u1, r4, hab, plug_cons]
        · rw [← u1]; exact r3
        · rw [← u1]; exact r5
        · rw [hab, plug_cons]; exact r6
        · obtain ⟨w1, w2⟩ := hWx W hW
          have key := phi_zig (W := W) (d := d) (a := ad) (b := bd) (s := s) w1 w2
          rw [← u1, hab]
          simp only [plug_cons, plug_nil]
          have hsz : sz W (nd d ad x (nd d bd y s)) = sz W (nd d (nd d ad x bd) y s) := by simp only [sz_nd]; omega
          refine ⟨hsz, .inr ⟨by trivial, by simp, ?_⟩⟩
          rw [hsz]
          have : lg (sz W (nd d ad x bd)) ≤ lg (sz W (nd d (nd d ad x bd) y s)) := by
            refine lg_mono ?_ ?_ <;> simp only [sz_nd] <;> omega
          linarith
      | cons fr2 c =>
        obtain ⟨d2, z, s2⟩ := fr2
        have hdy : dir h y = .ok d2 := dir_ctx (t := nd d (node a x b) y s) hs (by simp) hn
        have hWz : ∀ W : Nat → Nat, (∀ k ∈ (plug (node a x b) ((d, y, s) :: (d2, z, s2) :: c)).io, 1 ≤ W k) → 1 ≤ W z :=
          fun W hW => hW z (by rw [mem_plug]; exact .inr ⟨d2, z, s2, by simp, .inl rfl⟩)
        simp only [List.isEmpty_cons, Bool.not_false, if_true, hdx, hdy, ok_bind] at e1
        by_cases hdd : d = d2
        · -- zig-zig: rotate the parent first
          subst hdd
          rw [if_pos rfl] at e1
          obtain ⟨h2, e6, e3⟩ := bind_ok e1
          obtain ⟨h3, e4, e5⟩ := bind_ok e3
          cases e5
          obtain ⟨ad, bd, hab⟩ := orient d
          have hs' := hs; have hn' := hn; have hr' := hr
          simp only [plug_cons] at hs' hn' hr'
          obtain ⟨r2, r3, r4, r5, r6⟩ := rot_shape hs' hn' hr' e6
          rw [hab] at r3 r4 r5 r6
          have hnr : (plug (nd d (nd d ad x bd) y (nd d s z s2)) c).io.Nodup := by
            rw [r4, ← hab]; exact hn'
          obtain ⟨q2, q3, q4, q5, q6⟩ := rot_shape r3 hnr r5 e4
          obtain ⟨a', b', u1⟩ := unorient d ad (nd d bd y (nd d s z s2)) x
          refine ⟨a', b', c, nofun, by omega, by simp only [List.length_cons]; omega, by omega, ?_, ?_, ?_, ?_, fun W hW => ?_⟩
          · rw [← u1, q4, r4, hab, plug_cons, plug_cons]
          · rw [← u1]; exact q3
          · rw [← u1]; exact q5
          · intro k hk
            simp only [plug_cons] at hk
            exact (r6 k (by rw [← hab]; exact hk)).trans (q6 k (by rw [r4, ← hab]; exact hk))
          · obtain ⟨w1, w2⟩ := hWx W hW
            have key := phi_zigzig (W := W) (d := d) (a := ad) (b := bd) (s := s) (s2 := s2) w1 w2 (hWz W hW)
            rw [← u1, hab]
            simp only [plug_cons]
            have hsz : sz W (nd d ad x (nd d bd y (nd d s z s2))) = sz W (nd d (nd d (nd d ad x bd) y s) z s2) := by
              simp only [sz_nd]; omega
            refine ⟨sz_plug hsz c, .inl ?_⟩
            have hp := phi_plug hsz c
            rw [hsz]
            push_cast
            linarith
        · -- zig-zag: rotate x twice
          have hd2 : d2 = !d := by cases d <;> cases d2 <;> simp_all
          subst hd2
          rw [if_neg hdd] at e1
          obtain ⟨h2, e6, e3⟩ := bind_ok e1
          obtain ⟨h3, e4, e5⟩ := bind_ok e3
          cases e5
          obtain ⟨ad, bd, hab⟩ := orient d
          have hs' := hs; have hn' := hn; have hr' := hr
          rw [hab] at hs' hn' hr'
          obtain ⟨r2, r3, r4, r5, r6⟩ := rot_shape (c := (!d, z, s2) :: c) hs' hn' hr' e6
          have hnr : (plug (nd d ad x (nd d bd y s)) ((!d, z, s2) :: c)).io.Nodup := by
            rw [r4]; exact hn'
          have hflip : nd d ad x (nd d bd y s) = nd (!d) (nd d bd y s) x ad := by cases d <;> rfl
          have r3' := r3; have r5' := r5; have hnr' := hnr
          rw [plug_cons, hflip] at r3' r5' hnr'
          obtain ⟨q2, q3, q4, q5, q6⟩ := rot_shape r3' hnr' r5' e4
          obtain ⟨a', b', u1⟩ := unorient (!d) (nd d bd y s) (nd (!d) ad z s2) x
          refine ⟨a', b', c, nofun, by omega, by simp only [List.length_cons]; omega, by omega, ?_, ?_, ?_, ?_, fun W hW => ?_⟩
          · rw [← u1, q4, ← hflip, hab]; exact r4
          · rw [← u1]; exact q3
          · rw [← u1]; exact q5
          · intro k hk
            rw [hab] at hk
            exact (r6 k hk).trans (q6 k (by rw [← hflip]; rw [← plug_cons, r4]; exact hk))
          · obtain ⟨w1, w2⟩ := hWx W hW
            have key := phi_zigzag (W := W) (d := d) (a := ad) (b := bd) (s := s) (s2 := s2) w1 w2 (hWz W hW)
            rw [← u1, hab]
            simp only [plug_cons]
            have hsz : sz W (nd (!d) (nd d bd y s) x (nd (!d) ad z s2)) = sz W (nd (!d) (nd d (nd d ad x bd) y s) z s2) := by
              simp only [sz_nd]; omega
            refine ⟨sz_plug hsz c, .inl ?_⟩
            have hp := phi_plug hsz c
            rw [hsz]
            push_cast
            linarith

/-- `splay`: twice the depth of the node, and one -/
theorem splayC_struct {h h' : Heap D} {a x b c F fuel k} (hs : Shape h (plug (node a x b) c) F)
    (hn : (plug (node a x b) c).io.Nodup) (hr : RootOK h (plug (node a x b) c) F) (e : splayC fuel h x = .ok (k, h')) :
    ∃ a' b', k = 2 * c.length + 1 ∧ h'.size = h.size ∧ (node a' x b').io = (plug (node a x b) c).io ∧ Shape h' (node a' x b') F ∧
      (∀ k, k ∉ (plug (node a x b) c).io → SamePtr h h' k) ∧ ((c = [] → node a' x b' = node a x b) ∧ ∀ y s, c = [(true, y, s)] → node a' x b' = node (node s y a) x b) ∧
      ∀ W : Nat → Nat, (∀ k ∈ (plug (node a x b) c).io, 1 ≤ W k) →
        (c.length : ℝ) + phi W (node a' x b') ≤ phi W (plug (node a x b) c) +
            3 * (lg (sz W (plug (node a x b) c)) - lg (sz W (node a x b))) + 1 ∧
        phi W (node a' x b') ≤ phi W (plug (node a x b) c) + 3 * (lg (sz W (plug (node a x b) c)) - lg (sz W (node a x b))) := by
  unfold splayC at e
  obtain ⟨⟨k1, h1⟩, e1, e⟩ := bind_ok e
  obtain ⟨⟨m, h2⟩, e2, e⟩ := bind_ok e
  obtain ⟨h3, e3, e⟩ := bind_ok e
  cases e
  obtain ⟨f1, f2⟩ := pushDownFromRootC_struct fuel c h a x b k1 h1 hs hr e1
  obtain ⟨a', b', g1, g2, g3, g4, g5, g6, g7⟩ := splayLoopC_struct c.length c fuel h1 a b 0 m h2 le_rfl (hs.ptrs f2) hn
    (hr.ptr f2.1 (fun _ => Iff.rfl) fun k _ => f2.2 k) e2
  have p := pushUp_ptrs e3
  refine ⟨a', b', by simp only [] at *; omega, by rw [p.1, g2, f2.1], g3, g4.ptrs p, fun k hk => ?_, g6, g7⟩
  exact ((f2.2 k).trans (g5 k hk)).trans (p.2 k)

end AHO.LCT
