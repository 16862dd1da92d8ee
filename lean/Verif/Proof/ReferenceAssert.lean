import Verif.Proof.SafeReference
import Verif.Proof.SolverAssert
import Verif.Proof.SimpleSplit
import Verif.Model.Rounded
/-!
# Which assertions of the reference programs can fail

`bf_solve` has none. Those of `CostScaling::Refine` hold if all capacities are nonnegative and no edge is a loop, in every arithmetic in which
sums of nonnegative numbers and differences `a - b` with `b ≤ a` are not negative.
-/

namespace AHO
set_option linter.unusedSectionVars false

theorem NA.rd {α : Type} (v : Vec α) (i : Nat) : NA (v.rd i) (fun x => x = v.get i ∧ i < v.size) := by
  refine ⟨.rd v i, fun x h => ?_⟩
  unfold Vec.rd at h
  split at h
  · next hi => cases h; exact ⟨rfl, hi⟩
  · cases h

theorem NA.wr {α : Type} (v : Vec α) (i : Nat) (x : α) : NA (v.wr i x) (fun w => w = v.set i x ∧ i < v.size) := by
  refine ⟨.wr v i x, fun w h => ?_⟩
  unfold Vec.wr at h
  split at h
  · next hi => cases h; exact ⟨rfl, hi⟩
  · cases h

theorem NA.ck (imax x : Int) : NA (AHO.ck imax x) (fun y => y = x) := by
  refine ⟨.ck imax x, fun y h => ?_⟩
  unfold AHO.ck at h
  split at h <;> cases h
  rfl

theorem NA.fuel {α : Type} {P : α → Prop} : NA (.error .fuel : Res α) P := ⟨fun h => (by cases h), fun _ e => (by cases e)⟩

theorem NA.of_safe {α : Type} {r : Res α} {P : α → Prop} (h : Safe r P) (hn : NF r) : NA r P :=
  ⟨hn, fun a e => by rw [e] at h; exact h⟩

/-- what is used of the arithmetic -/
structure PosArith (D : Type) [LinearOrder D] [Zero D] [Add D] [Sub D] [Neg D] : Prop where
  add_pos : ∀ a b : D, 0 < a → 0 ≤ b → 0 < a + b
  add_nonneg : ∀ a b : D, 0 ≤ a → 0 ≤ b → 0 ≤ a + b
  sub_nonneg : ∀ a b : D, b ≤ a → 0 ≤ a - b
  neg_nonneg : ∀ a : D, a ≤ 0 → 0 ≤ -a

namespace CostScaling
variable {D : Type} [LinearOrder D] [Zero D] [Add D] [Sub D] [Neg D] [Mul D] [Div D] [IntCast D] [BEq D] [LawfulBEq D]

/-- the edges: nonnegative capacities, edge `i` starts at `src i` and is not a loop -/
structure Caps (src : Nat → Nat) (head : Vec (Option Nat)) (edge : Vec (CArc D)) : Prop where
  cap : ∀ i, 0 ≤ (edge.get i).capacity
  head : ∀ u i, head.get u = some i → src i = u
  next : ∀ i j, (edge.get i).next = some j → src j = src i
  ne : ∀ i, i < edge.size → (edge.get i).v ≠ src i

theorem Caps.set {src : Nat → Nat} {head : Vec (Option Nat)} {edge : Vec (CArc D)} (C : Caps src head edge) (i : Nat) {c : D} (hc : 0 ≤ c) :
    Caps src head (edge.set i { edge.get i with capacity := c }) := by
  refine ⟨fun k => ?_, C.head, fun k j h => C.next k j ?_, fun k hk => ?_⟩ <;> by_cases hki : k = i
  · subst hki; simpa [Vec.set] using hc
  · simpa [Vec.set, hki] using C.cap k
  · subst hki; simpa [Vec.set] using h
  · simpa [Vec.set, hki] using h
  · subst hki; simpa [Vec.set] using C.ne k hk
  · simpa [Vec.set, hki] using C.ne k hk

theorem setCapacity_na {src : Nat → Nat} {head : Vec (Option Nat)} {edge : Vec (CArc D)} (C : Caps src head edge) (i : Nat) {c : D} (hc : 0 ≤ c) :
    NA (setCapacity edge i c) (fun e => Caps src head e) := by
  unfold setCapacity
  refine (NA.rd _ _).bind fun e _ he => ?_
  obtain ⟨rfl, _⟩ := he
  exact (NA.wr _ _ _).mono fun e' _ he' => by
    rw [he'.1]
    exact C.set i hc

theorem costPi_nf (s : CostScaling D) (u : Nat) (e : CArc D) : NF (s.costPi u e) := by
  unfold costPi
  exact (NF.rd _ _).bind fun _ _ => (NF.rd _ _).bind fun _ _ => .ok

/-- the invariant of the loop of `Refine` -/
structure Act (src : Nat → Nat) (s : Refining D) : Prop where
  caps : Caps src s.head s.edge
  cur : ∀ u i, s.current_edge.get u = some i → src i = u
  nodup : s.st.Nodup
  vis : ∀ u ∈ s.st, s.vis.get u = true
  pos : ∀ u ∈ s.st, 0 < s.excess.get u

variable (A : PosArith D) {src : Nat → Nat}
include A

theorem saturate_na {s : Refining D} (C : Caps src s.head s.edge) (u i : Nat) :
    NA (saturate u i s) (fun s' => Caps src s'.head s'.edge ∧ s'.st = s.st ∧ s'.current_edge = s.current_edge) := by
  unfold saturate
  refine (NA.rd _ _).bind fun e _ he => (costPi_nf _ _ _).na.bind fun w _ _ => ?_
  obtain ⟨rfl, _⟩ := he
  split
  · refine (NA.rd _ _).bind fun a _ _ => (NA.wr _ _ _).bind fun x1 _ _ => (NA.rd _ _).bind fun b _ _ => (NA.wr _ _ _).bind fun x2 _ _ => ?_
    refine (NA.rd _ _).bind fun r _ hr => ?_
    obtain ⟨rfl, _⟩ := hr
    refine (setCapacity_na C _ (A.add_nonneg _ _ (C.cap _) (C.cap _))).bind fun e1 _ h1 => ?_
    exact (setCapacity_na h1 _ le_rfl).bind fun e2 _ h2 => NA.ok ⟨h2, rfl, rfl⟩
  · exact NA.ok ⟨C, rfl, rfl⟩

theorem saturateNode_na (fuel : Nat) {s : Refining D} (C : Caps src s.head s.edge) (u : Nat) :
    NA (saturateNode fuel s u) (fun s' => Caps src s'.head s'.edge ∧ s'.st = s.st ∧ s'.current_edge = s.current_edge) := by
  unfold saturateNode
  refine (NA.rd _ _).bind fun h _ _ => ?_
  refine (NA.whileLoop (P := fun x : Refining D × Option Nat => Caps src x.1.head x.1.edge ∧ x.1.st = s.st ∧ x.1.current_edge = s.current_edge)
    (fun x _ => .ok) (fun x hx _ => ?_) fuel (s, h) ⟨C, rfl, rfl⟩).bind fun r _ hr => NA.ok hr.1
  obtain ⟨t, c⟩ := x
  cases c with
  | none => exact NA.ok hx
  | some i =>
    refine (saturate_na A hx.1 u i).bind fun t' _ ht' => ?_
    exact (NA.rd _ _).bind fun e _ _ => NA.ok ⟨ht'.1, ht'.2.1.trans hx.2.1, ht'.2.2.trans hx.2.2⟩

omit A in
theorem Act.push {s : Refining D} (o : Act src s) {u : Nat} (hu : u ∉ s.st) (hx : 0 < s.excess.get u) :
    Act src { s with st := u :: s.st, vis := s.vis.set u true } := by
  refine ⟨o.caps, o.cur, List.nodup_cons.2 ⟨hu, o.nodup⟩, fun w hw => ?_, fun w hw => ?_⟩
  · rcases List.mem_cons.1 hw with rfl | hw
    · simp [Vec.set]
    · have := o.vis w hw
      simp only [Vec.set]
      split
      · rfl
      · exact this
  · rcases List.mem_cons.1 hw with rfl | hw
    · exact hx
    · exact o.pos w hw

omit A in
theorem pushActive_na {s : Refining D} {u : Nat} (o : Act src s) (hu : ∀ w ∈ s.st, w < u) :
    NA (pushActive s u) (fun s' => Act src s' ∧ ∀ w ∈ s'.st, w < u + 1) := by
  unfold pushActive
  refine (NA.rd _ _).bind fun x _ hx => ?_
  obtain ⟨rfl, _⟩ := hx
  split
  · next h =>
    refine (NA.wr _ _ _).bind fun v _ hv => ?_
    obtain ⟨rfl, _⟩ := hv
    refine NA.ok ⟨o.push (fun hm => Nat.lt_irrefl _ (hu u hm)) h, fun w hw => ?_⟩
    rcases List.mem_cons.1 hw with rfl | hw
    · exact Nat.lt_succ_self _
    · exact Nat.lt_succ_of_lt (hu w hw)
  · exact NA.ok ⟨o, fun w hw => Nat.lt_succ_of_lt (hu w hw)⟩

theorem push_na {s : Refining D} (o : Act src s) {u x : Nat} (hu : u ∉ s.st) (hs : src x = u) {flow : D} (h0 : 0 ≤ flow)
    (h1 : flow ≤ (s.edge.get x).capacity) (h2 : flow ≤ s.excess.get u) :
    NA (push u x flow s) (fun s' => Act src s' ∧ u ∉ s'.st ∧ 0 ≤ s'.excess.get u) := by
  unfold push
  refine (NA.rd _ _).bind fun e _ he => ?_
  obtain ⟨rfl, hx⟩ := he
  have hv : (s.edge.get x).v ≠ u := hs ▸ o.caps.ne x hx
  refine (setCapacity_na o.caps x (A.sub_nonneg _ _ h1)).bind fun e1 _ c1 => (NA.rd _ _).bind fun r _ hr => ?_
  obtain ⟨rfl, _⟩ := hr
  refine (setCapacity_na c1 _ (A.add_nonneg _ _ (c1.cap _) h0)).bind fun e2 _ c2 => ?_
  refine (NA.rd _ _).bind fun a _ ha => (NA.wr _ _ _).bind fun x1 _ hx1 => (NA.rd _ _).bind fun b _ hb => (NA.wr _ _ _).bind fun x2 _ hx2 => ?_
  obtain ⟨rfl, _⟩ := ha
  obtain ⟨rfl, _⟩ := hx1
  obtain ⟨rfl, _⟩ := hb
  obtain ⟨rfl, _⟩ := hx2
  have hget : ∀ w, w ≠ u → ((s.excess.set u (s.excess.get u - flow)).get w) = s.excess.get w := fun w hw => by simp [Vec.set, hw]
  have hvv := hget _ hv
  rw [hvv]
  have o' : Act src ({ s with
      edge := e2
      excess := (s.excess.set u (s.excess.get u - flow)).set (s.edge.get x).v (s.excess.get (s.edge.get x).v + flow) } : Refining D) := by
    refine ⟨c2, o.cur, o.nodup, o.vis, fun w hw => ?_⟩
    have hwu : w ≠ u := fun h => hu (h ▸ hw)
    have hp := o.pos w hw
    by_cases hwv : w = (s.edge.get x).v
    · have : (0 : D) < s.excess.get (s.edge.get x).v + flow := A.add_pos _ _ (hwv ▸ hp) h0
      simpa [Vec.set, hwv] using this
    · simpa [Vec.set, hwv, hwu] using hp
  have hxu : 0 ≤ ((s.excess.set u (s.excess.get u - flow)).set (s.edge.get x).v (s.excess.get (s.edge.get x).v + flow)).get u := by
    have := A.sub_nonneg _ _ h2
    simpa [Vec.set, Ne.symm hv] using this
  refine (NA.rd _ _).bind fun c _ hc => (NA.rd _ _).bind fun d _ hd => ?_
  obtain ⟨rfl, _⟩ := hc
  obtain ⟨rfl, _⟩ := hd
  split
  · next hcd =>
    refine (NA.wr _ _ _).bind fun v _ hvs => ?_
    obtain ⟨rfl, _⟩ := hvs
    have hnm : (s.edge.get x).v ∉ s.st := fun hm => by
      have h3 := o.vis _ hm
      have h4 : s.vis.get (s.edge.get x).v = false := hcd.2
      rw [h3] at h4
      cases h4
    refine NA.ok ⟨o'.push hnm hcd.1, fun hm => ?_, hxu⟩
    rcases List.mem_cons.1 hm with h | h
    · exact hv h.symm
    · exact hu h
  · exact NA.ok ⟨o', hu, hxu⟩

theorem discharge_na {u : Nat} : ∀ (fuel : Nat) {s : Refining D}, Act src s → u ∉ s.st → 0 < s.excess.get u →
    NA (discharge u fuel s) (fun r => Act src r.1 ∧ (r.2 = false → u ∉ r.1.st ∧ 0 < r.1.excess.get u))
  | 0, _, _, _, _ => NA.fuel
  | fuel + 1, s, o, hu, hpos => by
    unfold discharge
    refine (NA.rd _ _).bind fun c _ hc => ?_
    obtain ⟨hc, _⟩ := hc
    cases c with
    | none => exact NA.ok ⟨o, fun _ => ⟨hu, hpos⟩⟩
    | some i =>
      have hsi : src i = u := o.cur u i hc.symm
      refine (NA.rd _ _).bind fun e _ he => (costPi_nf _ _ _).na.bind fun w _ _ => ?_
      obtain ⟨rfl, hi⟩ := he
      have hrest : ∀ s' : Refining D, Act src s' → u ∉ s'.st → 0 ≤ s'.excess.get u → NA (do
          let x ← s'.excess.rd u
          if x == 0 then .ok (s', true)
          else do
            let e ← s'.edge.rd i
            let cur ← s'.current_edge.wr u e.next
            discharge u fuel { s' with current_edge := cur })
          (fun r => Act src r.1 ∧ (r.2 = false → u ∉ r.1.st ∧ 0 < r.1.excess.get u)) := by
        intro s' o' hu' hx
        refine (NA.rd _ _).bind fun x _ hx' => ?_
        obtain ⟨rfl, _⟩ := hx'
        split
        · exact NA.ok ⟨o', fun h => by cases h⟩
        · next hne =>
          refine (NA.rd _ _).bind fun e _ he => (NA.wr _ _ _).bind fun cur _ hcur => ?_
          obtain ⟨rfl, _⟩ := he
          obtain ⟨rfl, _⟩ := hcur
          refine discharge_na fuel ⟨o'.caps, fun w j hj => ?_, o'.nodup, o'.vis, o'.pos⟩ hu' (lt_of_le_of_ne hx ?_)
          · by_cases hwu : w = u
            · subst hwu
              rw [o'.caps.next i j (by simpa [Vec.set] using hj)]
              exact hsi
            · exact o'.cur w j (by simpa [Vec.set, hwu] using hj)
          · intro h0
            exact hne (by rw [← h0]; exact beq_self_eq_true _)
      by_cases hw : w < 0
      · simp only [if_pos hw]
        refine (NA.rd s.excess u).bind fun x _ hx => ?_
        obtain ⟨rfl, _⟩ := hx
        refine (push_na A o hu hsi ?_ ?_ ?_).bind fun s' _ hs' => hrest s' hs'.1 hs'.2.1 hs'.2.2
        · unfold dmin
          split
          · exact hpos.le
          · exact o.caps.cap i
        · unfold dmin
          split
          · next h => exact h.le
          · exact le_rfl
        · unfold dmin
          split
          · exact le_rfl
          · next h => exact not_lt.1 h
      · simp only [if_neg hw]
        exact hrest s o hu hpos.le

theorem modify_na (fuel : Nat) {u : Nat} {s : Refining D} (o : Act src s) (hu : u ∉ s.st) (hpos : 0 < s.excess.get u) :
    NA (modify fuel u s) (Act src) := by
  unfold modify
  refine (NA.rd _ _).bind fun x _ hx => ?_
  obtain ⟨rfl, _⟩ := hx
  rw [if_pos hpos]
  refine (discharge_na A fuel o hu hpos).bind fun r _ hr => ?_
  obtain ⟨s', ret⟩ := r
  dsimp only at hr
  cases ret with
  | true => exact NA.ok hr.1
  | false =>
    obtain ⟨o', hf⟩ := hr
    obtain ⟨hu', hpos'⟩ := hf rfl
    refine (NA.rd _ _).bind fun x _ hx => ?_
    obtain ⟨rfl, _⟩ := hx
    rw [if_pos hpos']
    unfold relabel
    simp only [bind_assoc]
    refine (NA.rd _ _).bind fun a _ _ => (NA.wr _ _ _).bind fun p _ _ => (NA.rd _ _).bind fun b _ _ => (NA.wr _ _ _).bind fun q _ _ => ?_
    refine (NA.rd s'.head u).bind fun h _ hh => (NA.wr _ _ _).bind fun cur _ hcur => (NA.wr _ _ _).bind fun vis _ hvis => ?_
    obtain ⟨rfl, _⟩ := hh
    obtain ⟨rfl, _⟩ := hcur
    obtain ⟨rfl, _⟩ := hvis
    have o2 : Act src ({ s' with p := p, incp := q, current_edge := s'.current_edge.set u (s'.head.get u) } : Refining D) := by
      refine ⟨o'.caps, fun w j hj => ?_, o'.nodup, o'.vis, o'.pos⟩
      by_cases hwu : w = u
      · subst hwu
        exact o'.caps.head w j (by simpa [Vec.set] using hj)
      · exact o'.cur w j (by simpa [Vec.set, hwu] using hj)
    exact NA.ok (o2.push hu' hpos')

theorem refineLoop_na (fuel : Nat) : ∀ (k : Nat) {s : Refining D}, Act src s → NA (refineLoop fuel k s) (fun r => Act src r.1)
  | 0, _, _ => NA.fuel
  | k + 1, s, o => by
    unfold refineLoop
    split
    · exact NA.ok o
    · next u st hst =>
      refine (NA.wr _ _ _).bind fun vis _ hvis => ?_
      obtain ⟨rfl, _⟩ := hvis
      have hnd := o.nodup
      rw [hst, List.nodup_cons] at hnd
      have o' : Act src ({ s with st := st, vis := s.vis.set u false } : Refining D) := by
        refine ⟨o.caps, o.cur, hnd.2, fun w hw => ?_, fun w hw => o.pos w (by rw [hst]; exact List.mem_cons_of_mem _ hw)⟩
        have hwu : w ≠ u := fun h => hnd.1 (h ▸ hw)
        have := o.vis w (by rw [hst]; exact List.mem_cons_of_mem _ hw)
        simpa [Vec.set, hwu] using this
      refine (NA.rd _ _).bind fun a _ _ => ?_
      split
      · exact NA.ok o'
      · exact (modify_na A fuel o' hnd.1 (o.pos u (by rw [hst]; exact List.mem_cons_self ..))).bind fun s' _ hs' => refineLoop_na fuel k hs'

theorem refine_na (fuel : Nat) {s : CostScaling D} (C : Caps src s.head s.edge) : NA (refine fuel s) (fun r => Caps src r.1.head r.1.edge) := by
  unfold refine
  have o0 : Act src ({ s with
      excess := Vec.replicate s.N 0
      incp := Vec.replicate s.N 0
      current_edge := s.head
      vis := Vec.replicate s.N false
      st := [] } : Refining D) := ⟨C, C.head, List.nodup_nil, fun u h => (by cases h), fun u h => (by cases h)⟩
  refine (NA.forRange (P := fun _ (r : Refining D) => Caps src r.head r.edge ∧ r.st = [] ∧ r.current_edge = s.head) s.N (fun r i _ hr =>
    (saturateNode_na A fuel hr.1 i).mono fun r' _ hr' => ⟨hr'.1, hr'.2.1.trans hr.2.1, hr'.2.2.trans hr.2.2⟩) s.N 0 _ (by omega) ⟨C, rfl, rfl⟩).bind fun r _ hr => ?_
  have o1 : Act src r := by
    refine ⟨hr.1, ?_, by rw [hr.2.1]; exact List.nodup_nil, fun u h => (by rw [hr.2.1] at h; cases h), fun u h => (by rw [hr.2.1] at h; cases h)⟩
    rw [hr.2.2]
    exact C.head
  refine (NA.forRange (P := fun i (r : Refining D) => Act src r ∧ ∀ w ∈ r.st, w < i) s.N (fun r i _ hr => pushActive_na hr.1 hr.2) s.N 0 r (by omega)
    ⟨o1, fun w h => by rw [hr.2.1] at h; cases h⟩).bind fun r _ hr => ?_
  exact (refineLoop_na A fuel fuel hr.1).bind fun r _ hr => NA.ok hr.caps

omit A in
theorem addEdge_nf (imax : Int) (u v : Nat) (c : Int) (cap : D) (s : CostScaling D) : NF (addEdge imax u v c cap s) := by
  unfold addEdge
  exact (NF.rd _ _).bind fun _ _ => (NF.ck _ _).bind fun _ _ => (NF.wr _ _ _).bind fun _ _ => .ok

omit A in
theorem addEdge_na {N : Nat} (imax : Int) {s : CostScaling D} (o : InitOk N s) (hsrc : Caps src s.head s.edge) (hb : ∀ u i, s.head.get u = some i → i < s.edge.size)
    (hn : ∀ i j, (s.edge.get i).next = some j → i < s.edge.size ∧ j < s.edge.size) {u v : Nat} (hu : u < N) (hv : v < N) (huv : u ≠ v) (c : Int) {cap : D} (hc : 0 ≤ cap) :
    NA (addEdge imax u v c cap s) (fun s' => InitOk N s' ∧ (∃ src, Caps src s'.head s'.edge) ∧ (∀ u i, s'.head.get u = some i → i < s'.edge.size) ∧
      ∀ i j, (s'.edge.get i).next = some j → i < s'.edge.size ∧ j < s'.edge.size) := by
  refine (NA.of_safe (addEdge_safe imax o hu hv c cap) (addEdge_nf imax u v c cap s)).mono fun s' e h => ⟨h.1, ?_⟩
  unfold addEdge at e
  obtain ⟨hd, e1, e⟩ := LCT.bind_ok e
  obtain ⟨len, e2, e⟩ := LCT.bind_ok e
  obtain ⟨head, e3, e⟩ := LCT.bind_ok e
  obtain ⟨rfl, hus⟩ := (NA.rd _ _).2 _ e1
  have e2 := (NA.ck _ _).2 _ e2
  obtain ⟨rfl, _⟩ := (NA.wr _ _ _).2 _ e3
  cases e
  have hlen : len.toNat = s.edge.size := by have := o.len; omega
  rw [hlen]
  refine ⟨⟨fun i => if i = s.edge.size then u else src i, fun i => ?_, fun w i hi => ?_, fun i j hj => ?_, fun i hi => ?_⟩, fun w i hi => ?_, fun i j hj => ?_⟩
  · by_cases hie : i = s.edge.size
    · simpa [Vec.push, hie] using hc
    · simpa [Vec.push, hie] using hsrc.cap i
  · by_cases hwu : w = u
    · have : s.edge.size = i := by simpa [Vec.set, hwu] using hi
      simp [this, hwu]
    · have hi' : s.head.get w = some i := by simpa [Vec.set, hwu] using hi
      have := hb w i hi'
      rw [if_neg (by omega)]
      exact hsrc.head w i hi'
  · by_cases hie : i = s.edge.size
    · have hj' : s.head.get u = some j := by simpa [Vec.push, hie] using hj
      have := hb u j hj'
      rw [if_neg (by omega), if_pos hie]
      exact hsrc.head u j hj'
    · have hj' : (s.edge.get i).next = some j := by simpa [Vec.push, hie] using hj
      have := hn i j hj'
      rw [if_neg (by omega), if_neg hie]
      exact hsrc.next i j hj'
  · have hi : i < s.edge.size + 1 := hi
    by_cases hie : i = s.edge.size
    · simpa [Vec.push, hie] using huv.symm
    · simpa [Vec.push, hie] using hsrc.ne i (by omega)
  · show i < s.edge.size + 1
    by_cases hwu : w = u
    · have : s.edge.size = i := by simpa [Vec.set, hwu] using hi
      omega
    · have := hb w i (by simpa [Vec.set, hwu] using hi)
      omega
  · show i < s.edge.size + 1 ∧ j < s.edge.size + 1
    by_cases hie : i = s.edge.size
    · have := hb u j (by simpa [Vec.push, hie] using hj)
      omega
    · have := hn i j (by simpa [Vec.push, hie] using hj)
      omega

/-- the object during `Init` -/
structure Building (N : Nat) (s : CostScaling D) : Prop where
  ok : InitOk N s
  caps : ∃ src, Caps src s.head s.edge
  hb : ∀ u i, s.head.get u = some i → i < s.edge.size
  hn : ∀ i j, (s.edge.get i).next = some j → i < s.edge.size ∧ j < s.edge.size

variable [One D]

omit A in
theorem initEdges_na {N : Nat} (imax : Int) : ∀ (arc : List (InputEdge D)) {s : CostScaling D},
    (∀ a ∈ arc, a.u < N ∧ a.v < N ∧ a.u ≠ a.v ∧ 0 ≤ a.capacity) → Building N s → NA (arc.foldlM (initEdge imax) s) (Building N)
  | [], _, _, o => NA.ok o
  | a :: arc, s, ha, o => by
    rw [List.foldlM_cons]
    obtain ⟨hu, hv, huv, hc⟩ := ha a (List.mem_cons_self ..)
    refine NA.bind (P := Building N) ?_ fun s' _ hs' => initEdges_na imax arc (fun b hb => ha b (List.mem_cons_of_mem _ hb)) hs'
    unfold initEdge
    obtain ⟨src, C⟩ := o.caps
    have o' : InitOk N { s with epsilon := dmax s.epsilon (a.cost : D), total_cost := s.total_cost + a.capacity * (a.cost : D) } :=
      ⟨o.ok.hN, o.ok.len, o.ok.headS, o.ok.head, o.ok.next, o.ok.v⟩
    refine (addEdge_na imax o' (src := src) C o.hb o.hn hu hv huv _ hc).bind fun s1 _ h1 => (NA.ck imax _).bind fun c _ _ => ?_
    obtain ⟨k1, ⟨src1, k2⟩, k3, k4⟩ := h1
    exact (addEdge_na imax k1 k2 k3 k4 hv hu huv.symm _ le_rfl).mono fun s2 _ h2 => ⟨h2.1, h2.2.1, h2.2.2.1, h2.2.2.2⟩

omit A in
theorem init_na {N : Nat} (imax : Int) {arc : List (InputEdge D)} (ha : ∀ a ∈ arc, a.u < N ∧ a.v < N ∧ a.u ≠ a.v ∧ 0 ≤ a.capacity) :
    NA (init imax N arc) (fun s => ∃ src, Caps src s.head s.edge) := by
  unfold init
  refine (initEdges_na imax arc ha (s := ⟨N, 1, Vec.replicate 0 0, Vec.replicate N none, Vec.replicate 0 ⟨none, 0, 0, 0⟩, -1, 0⟩)
    ⟨⟨rfl, rfl, rfl, fun u i _ h => ?_, fun i j hi => ?_, fun i hi => ?_⟩, ⟨fun _ => 0, fun i => le_rfl, fun u i h => ?_, fun i j h => ?_, fun i hi => ?_⟩,
      fun u i h => ?_, fun i j h => ?_⟩).bind fun s _ hs => NA.ok hs.caps
  · cases h
  · exact absurd hi (Nat.not_lt_zero _)
  · exact absurd hi (Nat.not_lt_zero _)
  · cases h
  · cases h
  · exact absurd hi (Nat.not_lt_zero _)
  · cases h
  · cases h

theorem scale_nf (fuel : Nat) : ∀ (k : Nat) {s : CostScaling D}, Caps src s.head s.edge → NF (scale fuel k s)
  | 0, _, _ => fun h => by cases h
  | k + 1, s, C => by
    unfold scale
    split
    · have h := refine_na A fuel C
      refine h.1.bind fun r e => ?_
      have hr := h.2 r e
      obtain ⟨s', b⟩ := r
      cases b with
      | true => exact scale_nf fuel k hr
      | false => exact .ok
    · exact .ok

theorem minCost_nf {N : Nat} (imax : Int) (fuel : Nat) {arc : List (InputEdge D)} (ha : ∀ a ∈ arc, a.u < N ∧ a.v < N ∧ a.u ≠ a.v ∧ 0 ≤ a.capacity) :
    NF (minCost imax fuel N arc) := by
  unfold minCost
  have h := init_na imax ha
  refine h.1.bind fun s e => ?_
  obtain ⟨src, C⟩ := h.2 s e
  refine (scale_nf A fuel fuel C).bind fun r _ => ?_
  obtain ⟨s', b⟩ := r
  cases b <;> exact .ok

end CostScaling

theorem Rd.posArith {K : Type} [Field K] [LinearOrder K] [IsStrictOrderedRing K] (ρ : Rounding K) : PosArith (Rd ρ) := by
  have hpos : ∀ {x y : K}, ρ.rnd x = x → x ≤ y → x ≤ ρ.rnd y := fun {x y} h hxy => by
    rw [← h]; exact ρ.mono _ _ hxy
  refine ⟨fun a b ha hb => ?_, fun a b ha hb => ?_, fun a b h => ?_, fun a h => ?_⟩
  · have ha : (0 : K) < a.val := ha
    have hb : (0 : K) ≤ b.val := hb
    exact lt_of_lt_of_le ha (hpos a.fix (by linarith))
  · have ha : (0 : K) ≤ a.val := ha
    have hb : (0 : K) ≤ b.val := hb
    exact hpos ρ.zero (add_nonneg ha hb)
  · have h : b.val ≤ a.val := h
    exact hpos ρ.zero (sub_nonneg.2 h)
  · have h : a.val ≤ 0 := h
    show (0 : K) ≤ -a.val
    linarith

namespace SimpleSolver
open Spec
variable {K : Type} [Field K] [LinearOrder K] [IsStrictOrderedRing K] {ρ : Rounding K}

/-- a result of the ternary search is the least value -/
theorem ternary_sound {imax : Int} {f : Fn (Rd ρ)} {g : Int → Rd ρ} : ∀ (fuel : Nat) {l r : Int} {m : Rd ρ}, l ≤ r →
    (∀ x, l ≤ x → x ≤ r → f x = .ok (g x)) → Convex (fun x => (g x).val) l r → ternary imax f fuel l r = .ok m → IsMin (fun x => (g x).val) l r m.val := by
  intro fuel
  induction fuel with
  | zero => intro l r m _ _ _ h; cases h
  | succ fuel ih =>
    intro l r m hlr hf hc h
    unfold ternary at h
    by_cases hlt : l < r
    · rw [if_pos hlt] at h
      obtain ⟨d, e1, h⟩ := LCT.bind_ok h
      obtain ⟨lm, e2, h⟩ := LCT.bind_ok h
      obtain ⟨rm, e3, h⟩ := LCT.bind_ok h
      have e1 := (NA.ck _ _).2 _ e1
      have e2 := (NA.ck _ _).2 _ e2
      have e3 := (NA.ck _ _).2 _ e3
      have hdiv : d.tdiv 3 = d / 3 := Int.tdiv_eq_ediv_of_nonneg (by omega)
      rw [hdiv] at e2 e3
      rw [hf lm (by omega) (by omega), ok_bind, hf rm (by omega) (by omega), ok_bind] at h
      have hcc : ∀ l' r', l ≤ l' → r' ≤ r → Convex (fun x => (g x).val) l' r' := fun l' r' a b x hx hy => hc x (by omega) (by omega)
      by_cases hg : g lm ≤ g rm
      · rw [if_pos hg] at h
        obtain ⟨r', e4, h⟩ := LCT.bind_ok h
        have e4 := (NA.ck _ _).2 _ e4
        subst e4
        obtain ⟨⟨x, x1, x2, x3⟩, hm⟩ := ih (by omega) (fun x a b => hf x a (by omega)) (hcc _ _ le_rfl (by omega)) h
        have hg : (g lm).val ≤ (g rm).val := hg
        refine ⟨⟨x, x1, by omega, x3⟩, fun y y1 y2 => ?_⟩
        rcases Int.lt_or_le y rm with hy | hy
        · exact hm y y1 (by omega)
        · exact (hm lm (by omega) (by omega)).trans (hg.trans (convex_right hc (x := lm) (by omega) (by omega) hg hy y2))
      · rw [if_neg hg] at h
        obtain ⟨l', e4, h⟩ := LCT.bind_ok h
        have e4 := (NA.ck _ _).2 _ e4
        subst e4
        obtain ⟨⟨x, x1, x2, x3⟩, hm⟩ := ih (by omega) (fun x a b => hf x (by omega) b) (hcc _ _ (by omega) le_rfl) h
        have hg : (g rm).val ≤ (g lm).val := (not_le.1 hg).le
        refine ⟨⟨x, by omega, x2, x3⟩, fun y y1 y2 => ?_⟩
        rcases Int.lt_or_le lm y with hy | hy
        · exact hm y (by omega) y2
        · exact (hm rm (by omega) (by omega)).trans (hg.trans (convex_left hc (y := rm) (by omega) (by omega) hg hy y1))
    · have hlr' : l = r := by omega
      subst hlr'
      rw [if_neg hlt, hf l le_rfl le_rfl, ok_bind, ok_bind] at h
      cases h
      have hd : dmin (g l) (g l) = g l := by unfold dmin; split <;> rfl
      rw [hd]
      refine ⟨⟨l, le_rfl, le_rfl, rfl⟩, fun x a b => ?_⟩
      rw [show x = l by omega]

/-- the values at and after `x` of a convex function have a least one, which is convex -/
theorem suffix_convex {g : Int → K} {l u : Int} (hlu : l ≤ u) (hc : Convex g l u) : ∃ g' : Int → K,
    (∀ x, x ≤ u → IsMin g (max l x) u (g' x)) ∧ ∀ l', Convex g' l' u := by
  obtain ⟨g', -, h2, h3, h4⟩ := suffixMin_spec (imax := |l| + |u| + 1) (e := ⟨⟨l, u, fun x => .ok (g x)⟩, 0, 0⟩) (g := g) hlu
    (by have := neg_abs_le l; have := abs_nonneg u; show _ ≤ l; omega) (by have := le_abs_self u; have := abs_nonneg l; show u ≤ _; omega)
    (by have := neg_abs_le l; have := le_abs_self u; show u - l ≤ _; omega) (fun x _ _ => rfl) hc
  refine ⟨g', fun x hx => ⟨?_, fun y a b => h3 x y (by omega) (by have := le_max_left l x; show l ≤ y; omega) b⟩, h4⟩
  obtain ⟨y, y1, y2, y3, y4⟩ := h2 x hx
  have y1 : l ≤ y := y1
  exact ⟨y, max_le y1 y2, y3, y4.symm⟩

/-- the values of `f` are those of `g`, which is convex with slopes up to `10^9` -/
structure Shape (f : Fn (Rd ρ)) (g : Int → K) (l r : Int) : Prop where
  val : ∀ x m, l ≤ x → x ≤ r → f x = .ok m → m.val = g x
  ok : EdgeOK 1 (bigM : K) l r g

/-- the rounded slopes -/
theorem bij_sound (hM : ρ.rnd (bigM : K) = bigM) {imax : Int} {f : Fn (Rd ρ)} {g : Int → K} {l r : Int} (S : Shape f g l r) {x : Int} {m : Rd ρ} (h : bij imax f l r x = .ok m) :
    m.val = ρ.rnd (slp g l r x) := by
  unfold bij at h
  by_cases h1 : x < l
  · rw [if_pos h1] at h
    cases h
    rw [slp_lt S.ok.le h1]
    show -ρ.rnd (bigM : K) = ρ.rnd (-bigM)
    rw [← ρ.neg, hM]
  · rw [if_neg h1] at h
    by_cases h2 : r ≤ x
    · rw [if_pos h2] at h
      cases h
      rw [slp_ge S.ok.le h2]
      rfl
    · rw [if_neg h2] at h
      obtain ⟨x1, e1, h3⟩ := LCT.bind_ok h
      obtain ⟨a, e2, h4⟩ := LCT.bind_ok h3
      obtain ⟨b, e3, h5⟩ := LCT.bind_ok h4
      have e1' := (NA.ck _ _).2 _ e1
      subst e1'
      cases h5
      rw [slp_in (by omega) (by omega), ← S.val _ _ (by omega) (by omega) e2, ← S.val _ _ (by omega) (by omega) e3]
      rfl

/-- what a function object may do: it does not fail an assertion, and has convex values where it has values -/
theorem ternary_nf {D : Type} [LT D] [LE D] [DecidableLT D] [DecidableLE D] {imax : Int} {f : Fn D} (hf : ∀ x, NF (f x)) :
    ∀ (fuel : Nat) (l r : Int), NF (ternary imax f fuel l r)
  | 0, _, _ => fun h => by cases h
  | fuel + 1, l, r => by
    unfold ternary
    split
    · refine (NF.ck _ _).bind fun _ _ => (NF.ck _ _).bind fun _ _ => (NF.ck _ _).bind fun _ _ => (hf _).bind fun _ _ => (hf _).bind fun _ _ => ?_
      split
      · exact (NF.ck _ _).bind fun _ _ => ternary_nf hf fuel _ _
      · exact (NF.ck _ _).bind fun _ _ => ternary_nf hf fuel _ _
    · exact (hf _).bind fun _ _ => (hf _).bind fun _ _ => .ok

theorem bij_nf {imax : Int} {f : Fn (Rd ρ)} (hf : ∀ x, NF (f x)) (l r x : Int) : NF (bij imax f l r x) := by
  unfold bij
  split
  · exact .ok
  · split
    · exact .ok
    · exact (NF.ck _ _).bind fun _ _ => (hf _).bind fun _ _ => (hf _).bind fun _ _ => .ok

/-- edges for `MinCost` -/
def Arcs (N : Nat) (es : List (InputEdge (Rd ρ))) : Prop := ∀ a ∈ es, a.u < N ∧ a.v < N ∧ a.u ≠ a.v ∧ 0 ≤ a.capacity

theorem splitAt_na (hM : ρ.rnd (bigM : K) = bigM) {imax : Int} {f : Fn (Rd ρ)} {g : Int → K} {l r : Int} (hf : ∀ x, NF (f x)) (S : Shape f g l r)
    {N u v : Nat} (hu : u < N) (hv : v < N) (huv : u ≠ v) (j : Int) : NA (splitAt imax f l r u v j) (Arcs N) := by
  unfold splitAt
  have A := Rd.posArith ρ
  refine (NA.ck _ _).bind fun j1 _ hj => ?_
  subst hj
  refine (bij_nf hf _ _ _).na.bind fun lo elo _ => (bij_nf hf _ _ _).na.bind fun up eup _ => ?_
  have hle : lo ≤ up := by
    show lo.val ≤ up.val
    rw [bij_sound hM S elo, bij_sound hM S eup]
    exact ρ.mono _ _ (slp_mono S.ok (by omega))
  split
  · refine NA.ok fun a ha => ?_
    cases List.mem_singleton.1 ha
    exact ⟨hu, hv, huv, A.sub_nonneg _ _ hle⟩
  · next h0 =>
    refine (NA.ck _ _).bind fun nj _ _ => ?_
    split
    · refine NA.ok fun a ha => ?_
      cases List.mem_singleton.1 ha
      exact ⟨hv, hu, huv.symm, A.sub_nonneg _ _ hle⟩
    · next h1 =>
      refine NA.ok fun a ha => ?_
      rcases List.mem_cons.1 ha with rfl | ha
      · exact ⟨hu, hv, huv, (not_le.1 h1).le⟩
      · cases List.mem_singleton.1 ha
        exact ⟨hv, hu, huv.symm, A.neg_nonneg _ (not_le.1 h0).le⟩

theorem split_na (hM : ρ.rnd (bigM : K) = bigM) {imax : Int} (fuel : Nat) {f : Fn (Rd ρ)} {g : Int → K} {l r : Int} (hf : ∀ x, NF (f x)) (S : Shape f g l r)
    {N u v : Nat} (hu : u < N) (hv : v < N) (huv : u ≠ v) {es : List (InputEdge (Rd ρ))} (he : Arcs N es) :
    NA (split imax fuel f l r u v es) (Arcs N) := by
  unfold split
  refine (NA.whileLoop (P := fun s : Int × List (InputEdge (Rd ρ)) => Arcs N s.2) (fun _ _ => .ok) (fun s hs _ => ?_) fuel (l, es) he).bind
    fun s _ hs => NA.ok hs.1
  refine (splitAt_na hM hf S hu hv huv s.1).bind fun es' _ h' => (NA.ck _ _).bind fun j _ _ => NA.ok fun a ha => ?_
  rcases List.mem_append.1 ha with ha | ha
  · exact hs a ha
  · exact h' a ha

/-- the invariant of `Solve` -/
structure StateNA (N : Nat) (s : State (Rd ρ)) : Prop where
  edge : Arcs N s.edge
  parts : ∀ q ∈ s.parts, ∀ x, NF (q.1 x)

/-- what is assumed about a cost: its values are convex, with slopes up to `10^9` -/
structure CostVal (m : MuLimit (Rd ρ)) (F : Int → Rd ρ) : Prop where
  val : ∀ x, m.l ≤ x → x ≤ m.u → m.fn x = .ok (F x)
  conv : Convex (fun x => (F x).val) m.l m.u
  bd : ∀ x, m.l ≤ x → x + 1 ≤ m.u → |(F (x + 1)).val - (F x).val| ≤ bigM

/-- moreover its evaluation does not fail an assertion -/
structure CostOk (m : MuLimit (Rd ρ)) (F : Int → Rd ρ) : Prop extends CostVal m F where
  nf : ∀ x, NF (m.fn x)

theorem CostVal.shape {m : MuLimit (Rd ρ)} {F : Int → Rd ρ} (h : CostVal m F) (hlu : m.l ≤ m.u) : Shape m.fn (fun x => (F x).val) m.l m.u := by
  refine ⟨fun x v a b e => ?_, ⟨by norm_num, hlu, h.conv, h.bd, (bigM_pos).le⟩⟩
  rw [h.val x a b] at e
  cases e
  rfl

theorem CostVal.suffix {e : OmegaLimit (Rd ρ)} {F : Int → Rd ρ} (h : CostVal e.toMuLimit F) (hlu : e.l ≤ e.u) (imax : Int) (fuel : Nat) {l : Int} (hl : l ≤ e.u) :
    ∃ g, Shape (suffixMin imax fuel e) g l e.u := by
  obtain ⟨g', h1, h2⟩ := suffix_convex hlu h.conv
  refine ⟨g', fun x v a b hv => ?_, ⟨by norm_num, hl, h2 l, fun x a b => ?_, (bigM_pos).le⟩⟩
  · unfold suffixMin at hv
    exact (ternary_sound fuel (by omega) (fun y c d => h.val y (by omega) d) (fun y c d => h.conv y (by omega) d) hv).unique (h1 x b)
  · obtain ⟨⟨y, y1, y2, y3⟩, hm⟩ := h1 x (by omega)
    obtain ⟨⟨z, z1, z2, z3⟩, hm'⟩ := h1 (x + 1) b
    have hle : g' x ≤ g' (x + 1) := by
      rw [← z3]
      exact hm z (by omega) z2
    have hM := (bigM_pos (K := K)).le
    rw [abs_of_nonneg (by linarith)]
    by_cases hy : max e.l (x + 1) ≤ y
    · have := hm' y hy y2
      dsimp only at y3
      linarith
    · have hyx : y = x := by omega
      subst hyx
      have h3 := hm' (y + 1) (by omega) b
      have h4 := h.bd y (by omega) b
      have h5 := le_abs_self ((F (y + 1)).val - (F y).val)
      dsimp only at y3 h3
      linarith

theorem nodes_na (hM : ρ.rnd (bigM : K) = bigM) (imax : Int) (fuel : Nat) {n : Nat} {node : List (MuLimit (Rd ρ))}
    (hm : ∀ i m, 1 ≤ i → i ≤ n → node[i]? = some m → ∃ F, CostOk m F) : ∀ (cnt i : Nat) {s : State (Rd ρ)}, 1 ≤ i → i + cnt = n + 1 → StateNA (n + 1) s →
    NA (nodes imax fuel node cnt i s) (fun r => ∀ s', r = some s' → StateNA (n + 1) s')
  | 0, _, s, _, _, o => NA.ok (by intro s' h; cases h; exact o)
  | cnt + 1, i, s, h1, hi, o => by
    unfold nodes
    refine (NF.listRd _ _).na.bind fun e he _ => ?_
    split
    · exact NA.ok (by intro s' h; cases h)
    · next hlu =>
      obtain ⟨F, hF⟩ := hm i e h1 (by omega) (by unfold listRd at he; split at he <;> cases he; assumption)
      refine (hF.nf _).na.bind fun a _ _ => (hF.nf _).na.bind fun b _ _ => ?_
      refine (split_na hM fuel hF.nf (hF.shape (by omega)) (by omega) (by omega) (by omega) o.edge).bind fun es _ hes => ?_
      refine nodes_na hM imax fuel hm cnt (i + 1) (by omega) (by omega) ⟨hes, fun q hq => ?_⟩
      rcases List.mem_append.1 hq with hq | hq
      · exact o.parts q hq
      · cases List.mem_singleton.1 hq
        exact hF.nf

theorem pairs_na (hM : ρ.rnd (bigM : K) = bigM) (imax : Int) (fuel : Nat) {n : Nat} {node : List (MuLimit (Rd ρ))} : ∀ (os : List (OmegaLimit (Rd ρ)))
    {s : State (Rd ρ)}, (∀ o ∈ os, o.i ≤ n ∧ o.j ≤ n ∧ o.i ≠ o.j ∧ ∃ F, CostOk o.toMuLimit F) → StateNA (n + 1) s →
    NA (pairs imax fuel node os s) (fun r => ∀ s', r = some s' → StateNA (n + 1) s')
  | [], s, _, o => NA.ok (by intro s' h; cases h; exact o)
  | e :: rest, s, ho, o => by
    unfold pairs
    obtain ⟨h1, h2, h3, F, hF⟩ := ho e (List.mem_cons_self ..)
    split
    · exact NA.ok (by intro s' h; cases h)
    · next hlu =>
      refine (hF.nf _).na.bind fun a _ _ => (hF.nf _).na.bind fun b _ _ => ?_
      refine (NF.listRd _ _).na.bind fun mi _ _ => (NF.listRd _ _).na.bind fun mj _ _ => (NA.ck imax _).bind fun d _ _ => ?_
      refine (NA.ck imax _).bind fun _ _ _ => (NA.ck imax _).bind fun _ _ _ => ?_
      obtain ⟨g, S⟩ := hF.suffix (by omega) imax fuel (l := min e.l d) (by omega)
      have hnf : ∀ x, NF (suffixMin imax fuel e x) := fun x => by
        unfold suffixMin
        exact ternary_nf hF.nf _ _ _
      refine (split_na hM fuel hnf S (by omega) (by omega) h3 o.edge).bind fun es _ hes => ?_
      refine pairs_na hM imax fuel rest (fun q hq => ho q (List.mem_cons_of_mem _ hq)) ⟨hes, fun q hq => ?_⟩
      rcases List.mem_append.1 hq with hq | hq
      · exact o.parts q hq
      · cases List.mem_singleton.1 hq
        exact hnf

theorem addMinima_nf {D : Type} [Add D] [LT D] [LE D] [DecidableLT D] [DecidableLE D] (imax : Int) (fuel : Nat) : ∀ (ps : List (Fn D × Int × Int)) (res : D),
    (∀ q ∈ ps, ∀ x, NF (q.1 x)) → NF (addMinima imax fuel ps res)
  | [], _, _ => .ok
  | (f, l, r) :: ps, res, h => by
    unfold addMinima
    exact (ternary_nf (h (f, l, r) (List.mem_cons_self ..)) fuel l r).bind fun m _ => addMinima_nf imax fuel ps _ fun q hq => h q (List.mem_cons_of_mem _ hq)

theorem solve_nf (hM : ρ.rnd (bigM : K) = bigM) (imax : Int) (fuel : Nat) {n : Nat} {node : List (MuLimit (Rd ρ))} {os : List (OmegaLimit (Rd ρ))}
    (hm : ∀ i m, 1 ≤ i → i ≤ n → node[i]? = some m → ∃ F, CostOk m F) (ho : ∀ o ∈ os, o.i ≤ n ∧ o.j ≤ n ∧ o.i ≠ o.j ∧ ∃ F, CostOk o.toMuLimit F) :
    NF (solve imax fuel n node os) := by
  unfold solve
  have h := nodes_na hM imax fuel hm n 1 (s := ⟨[], [], 0⟩) (Nat.le_refl _) (by omega) ⟨fun a h => (by cases h), fun q h => (by cases h)⟩
  refine h.1.bind fun r e => ?_
  have hr := h.2 r e
  cases r with
  | none => exact .ok
  | some s =>
    have h := pairs_na hM imax fuel (node := node) os ho (hr s rfl)
    refine h.1.bind fun r e => ?_
    have hr := h.2 r e
    cases r with
    | none => exact .ok
    | some s =>
      have o := hr s rfl
      refine (NF.ck imax _).bind fun n1 hn1 => ?_
      have hn1 := (NA.ck _ _).2 _ hn1
      have hN : n1.toNat = n + 1 := by omega
      rw [hN]
      refine (CostScaling.minCost_nf (Rd.posArith ρ) imax fuel o.edge).bind fun r _ => ?_
      refine (addMinima_nf imax fuel s.parts r.2 o.parts).bind fun res _ => ?_
      split <;> exact .ok

end SimpleSolver

namespace Oracle
variable {D : Type}

theorem partitionPoint_nf (imax : Int) {pred : Int → Res Bool} (hp : ∀ x, NF (pred x)) : ∀ (fuel : Nat) (l r : Int), NF (partitionPoint imax pred fuel l r)
  | 0, _, _ => fun h => by cases h
  | fuel + 1, l, r => by
    unfold partitionPoint
    split
    · refine (NF.ck _ _).bind fun _ _ => (NF.ck _ _).bind fun _ _ => (hp _).bind fun b _ => ?_
      cases b
      · exact partitionPoint_nf imax hp fuel _ _
      · exact (NF.ck _ _).bind fun _ _ => partitionPoint_nf imax hp fuel _ _
    · exact .ok

theorem preAll_na [LT D] [DecidableLT D] (imax : Int) (fuel : Nat) : ∀ (os : List (OmegaLimit D)), (∀ o ∈ os, ∀ x, NF (o.fn x)) →
    NA (preAll imax fuel os) (fun os' => ∀ o ∈ os', ∀ x, NF (o.fn x))
  | [], _ => NA.ok fun o h => by cases h
  | o :: os, ho => by
    unfold preAll
    have hf := ho o (List.mem_cons_self ..)
    refine NA.bind (P := fun o' : OmegaLimit D => ∀ x, NF (o'.fn x)) ?_ fun o' _ ho' =>
      (preAll_na imax fuel os fun o h => ho o (List.mem_cons_of_mem _ h)).bind fun os' _ hos => NA.ok fun q hq => ?_
    · unfold OmegaLimit.preProcessing
      refine (partitionPoint_nf imax (fun x => ?_) _ _ _).na.bind fun m _ _ => NA.ok fun x => hf _
      unfold descends
      exact (hf _).bind fun _ _ => (NF.ck _ _).bind fun _ _ => (hf _).bind fun _ _ => .ok
    · rcases List.mem_cons.1 hq with rfl | hq
      · exact ho'
      · exact hos q hq

theorem leaf_nf [Add D] [LT D] [DecidableLT D] (imax : Int) (v : Vec Int) (ret : Option D) : ∀ (os : List (OmegaLimit D)) (sum : D),
    (∀ o ∈ os, ∀ x, NF (o.fn x)) → NF (leaf imax v ret os sum)
  | [], _, _ => .ok
  | o :: os, sum, ho => by
    unfold leaf
    refine (NF.rd _ _).bind fun a _ => (NF.rd _ _).bind fun b _ => (NF.ck _ _).bind fun x _ => ?_
    split
    · exact .ok
    · exact (ho o (List.mem_cons_self ..) _).bind fun y _ => leaf_nf imax v ret os _ fun o h => ho o (List.mem_cons_of_mem _ h)

theorem dfs_nf [Add D] [LT D] [DecidableLT D] (imax : Int) (fuel : Nat) {n : Nat} {Mus : List (MuLimit D)} {os : List (OmegaLimit D)}
    (hm : ∀ i m, 1 ≤ i → i ≤ n → Mus[i]? = some m → ∀ x, NF (m.fn x)) (ho : ∀ o ∈ os, ∀ x, NF (o.fn x)) :
    ∀ (k p : Nat) (sum : D) (st : Vec Int × Option D), p + k = n → NF (dfs imax fuel Mus os k p sum st)
  | 0, p, sum, (v, ret), _ => by
    unfold dfs
    exact (leaf_nf imax v ret os sum ho).bind fun _ _ => .ok
  | k + 1, p, sum, (v, ret), hk => by
    unfold dfs
    refine (NF.listRd _ _).bind fun m e => (NF.wr _ _ _).bind fun w _ => ?_
    have hf := hm (p + 1) m (by omega) (by omega) (by unfold listRd at e; split at e <;> cases e; assumption)
    refine NF.whileLoop (fun s => (NF.rd _ _).bind fun _ _ => .ok) (fun s => ?_) fuel _
    exact (NF.rd _ _).bind fun i _ => (hf i).bind fun y _ => (dfs_nf imax fuel hm ho k (p + 1) _ s (by omega)).bind fun s' _ =>
      (NF.rd _ _).bind fun _ _ => (NF.ck _ _).bind fun _ _ => (NF.wr _ _ _).bind fun _ _ => .ok

theorem bfSolve_nf [Zero D] [Add D] [LT D] [DecidableLT D] (imax : Int) (fuel : Nat) {n : Nat} {Mus : List (MuLimit D)} {os : List (OmegaLimit D)}
    (hm : ∀ i m, 1 ≤ i → i ≤ n → Mus[i]? = some m → ∀ x, NF (m.fn x)) (ho : ∀ o ∈ os, ∀ x, NF (o.fn x)) : NF (bfSolve imax fuel n Mus os) := by
  unfold bfSolve
  have h := preAll_na imax fuel os ho
  exact h.1.bind fun os' e => (dfs_nf imax fuel hm (h.2 os' e) n 0 0 _ (by omega)).bind fun _ _ => .ok

end Oracle
end AHO
