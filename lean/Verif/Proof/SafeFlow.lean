import Verif.Model.Flow
import Verif.Proof.Safe
/-!
# Memory safety of `Flow`, whatever the costs and the arithmetic

No law of arithmetic is used, and the costs need not be convex.
-/

namespace AHO

/-- the range is not empty and the callback can be called on it -/
def MuLimit.Callable {D : Type} (e : MuLimit D) : Prop := e.l ≤ e.u ∧ ∀ x, e.l ≤ x → x ≤ e.u → Safe (e.fn x) (fun _ => True)

theorem partitionPoint_safe (imax : Int) {pred : Int → Res Bool} : ∀ (fuel : Nat) (l r : Int), l ≤ r →
    (∀ x, l ≤ x → x < r → Safe (pred x) (fun _ => True)) → Safe (partitionPoint imax pred fuel l r) (fun x => l ≤ x ∧ x ≤ r)
  | 0, _, _, _, _ => .fuel
  | fuel + 1, l, r, hlr, hp => by
    unfold partitionPoint
    split
    · next hne =>
      refine (Safe.ck imax (r - l)).bind fun d hd => ?_
      refine (Safe.ck imax _).bind fun mid hm => ?_
      have h1 : l ≤ mid := by
        rw [hm, hd, Int.tdiv_eq_ediv_of_nonneg (by omega)]; omega
      have h2 : mid < r := by
        rw [hm, hd, Int.tdiv_eq_ediv_of_nonneg (by omega)]; omega
      refine (hp mid h1 h2).bind fun b _ => ?_
      cases b with
      | true =>
        refine (Safe.ck imax _).bind fun l' hl => ?_
        exact (partitionPoint_safe imax fuel l' r (by omega) fun x hx hx' => hp x (by omega) hx').mono fun x hx => ⟨by omega, hx.2⟩
      | false =>
        exact (partitionPoint_safe imax fuel l mid h1 fun x hx hx' => hp x hx (by omega)).mono fun x hx => ⟨hx.1, by omega⟩
    · exact ⟨Int.le_refl _, hlr⟩

theorem descends_safe {D : Type} [LT D] [DecidableLT D] (imax : Int) {e : MuLimit D} (h : e.Callable) :
    ∀ x, e.l ≤ x → x < e.u → Safe (descends imax e.fn x) (fun _ => True) := by
  intro x h1 h2
  unfold descends
  refine (h.2 x h1 (by omega)).bind fun a _ => (Safe.ck imax _).bind fun x1 hx => ?_
  exact (h.2 x1 (by omega) (by omega)).bind fun b _ => trivial

theorem minimum_safe {D : Type} [LT D] [DecidableLT D] (imax : Int) (fuel : Nat) {e : OmegaLimit D} (h : e.toMuLimit.Callable) :
    Safe (e.minimum imax fuel) (fun _ => True) := by
  unfold OmegaLimit.minimum
  exact (partitionPoint_safe imax fuel e.l e.u h.1 (descends_safe imax h)).bind fun x hx => h.2 x hx.1 hx.2

theorem preProcessing_safe {D : Type} [LT D] [DecidableLT D] (imax : Int) (fuel : Nat) {e : OmegaLimit D} (h : e.toMuLimit.Callable) :
    Safe (e.preProcessing imax fuel) (fun e' => e'.i = e.i ∧ e'.j = e.j ∧ e'.u = e.u ∧ ∀ x, x ≤ e.u → Safe (e'.fn x) (fun _ => True)) := by
  unfold OmegaLimit.preProcessing
  refine (partitionPoint_safe imax fuel e.l e.u h.1 (descends_safe imax h)).bind fun m hm => ?_
  refine ⟨rfl, rfl, rfl, fun x hx => h.2 _ ?_ ?_⟩
  · exact Int.le_trans hm.1 (Int.le_max_left ..)
  · exact Int.max_le.mpr ⟨hm.2, hx⟩

theorem reverse_safe {D : Type} (imax : Int) {e : OmegaLimit D} (h : e.toMuLimit.Callable) :
    Safe (e.reverse imax) (fun e' => e'.i = e.j ∧ e'.j = e.i ∧ e'.toMuLimit.Callable) := by
  unfold OmegaLimit.reverse
  refine (Safe.ck imax _).bind fun l' hl => (Safe.ck imax _).bind fun u' hu => ?_
  refine ⟨rfl, rfl, ?_, fun x h1 h2 => ?_⟩
  · show l' ≤ u'
    have := h.1
    omega
  · have h1 : l' ≤ x := h1
    have h2 : x ≤ u' := h2
    exact (Safe.ck imax (-x)).bind fun y hy => h.2 y (by omega) (by omega)

theorem merge_safe {D : Type} [Add D] {e e' : OmegaLimit D} (h : e.toMuLimit.Callable) (h' : e'.toMuLimit.Callable) :
    Safe (e.merge e') (fun r => r.1.i = e.i ∧ r.1.j = e.j ∧ (r.2 = false → r.1.toMuLimit.Callable)) := by
  unfold OmegaLimit.merge
  simp only
  split
  · refine ⟨rfl, rfl, fun hf => ⟨?_, fun x h1 h2 => ?_⟩⟩
    · simpa using hf
    · have h1 : max e.l e'.l ≤ x := h1
      have h2 : x ≤ min e.u e'.u := h2
      exact (h.2 x (by omega) (by omega)).bind fun a _ => (h'.2 x (by omega) (by omega)).bind fun b _ => trivial
  · exact .assertFail

namespace Flow
variable {D : Type}

/-- the limits of a network with the nodes `0, …, n`: the ends of an edge are two different nodes, the callbacks can be called on the range -/
def EdgeOk (n : Nat) (e : OmegaLimit D) : Prop := e.i ≤ n ∧ e.j ≤ n ∧ e.i ≠ e.j ∧ e.toMuLimit.Callable

/-- what never changes: edges and adjacency lists -/
structure NetOk (n : Nat) (E : Vec (OmegaLimit D)) (G : Vec (List Nat)) : Prop where
  even : E.size % 2 = 0
  edge : ∀ k, k < E.size → EdgeOk n (E.get k)
  Gsize : G.size = n + 1
  mem : ∀ x k, x ≤ n → k ∈ G.get x → k < E.size ∧ (E.get k).i = x
  ne : 0 < E.size → ∀ x, x ≤ n → G.get x ≠ []

/-- the invariant; if `B`, the queue is not empty; `P` are the nodes whose current edge may be past the end -/
structure FlowOk (n : Nat) (E : Vec (OmegaLimit D)) (G : Vec (List Nat)) (B : Prop) (P : Nat → Prop) (s : Flow D) : Prop where
  hn : s.n = n
  edges : s.edges = E
  hG : s.G = G
  nodes : LCT.Mem.PtrOk (n + 1) s.nodes
  imb : s.imbalances.size = n + 1
  cur : s.currentEdge.size = n + 1
  faS : s.fa.size = n + 1
  sc : s.scaling.size = n + 1
  isIn : s.uq.isIn.size = n + 1
  fl : s.flows.size = E.size
  queue : ∀ x, x ∈ s.uq.queue → x ≤ n
  qne : B → s.uq.queue ≠ []
  ce : ∀ x, x ≤ n → ¬ P x → 0 < E.size → s.currentEdge.get x < (G.get x).length
  hfa : ∀ x, x ≤ n → s.fa.get x ≠ none → 0 < E.size

theorem FlowOk.mono {n E G B} {P Q : Nat → Prop} {s : Flow D} (o : FlowOk n E G B P s) (h : ∀ x, P x → Q x) : FlowOk n E G B Q s :=
  { o with ce := fun x hx hq => o.ce x hx fun hp => hq (h x hp) }

variable {n : Nat} {E : Vec (OmegaLimit D)} {G : Vec (List Nat)} {B : Prop} {P : Nat → Prop}

theorem FlowOk.setNodes {s : Flow D} (o : FlowOk n E G B P s) {h : Heap D} (hh : LCT.Mem.PtrOk (n + 1) h) : FlowOk n E G B P { s with nodes := h } :=
  ⟨o.hn, o.edges, o.hG, hh, o.imb, o.cur, o.faS, o.sc, o.isIn, o.fl, o.queue, o.qne, o.ce, o.hfa⟩

theorem FlowOk.setImb {s : Flow D} (o : FlowOk n E G B P s) {v : Vec D} (hv : v.size = n + 1) : FlowOk n E G B P { s with imbalances := v } :=
  ⟨o.hn, o.edges, o.hG, o.nodes, hv, o.cur, o.faS, o.sc, o.isIn, o.fl, o.queue, o.qne, o.ce, o.hfa⟩

theorem FlowOk.setFa {s : Flow D} (o : FlowOk n E G B P s) (x : Nat) (v : Option Nat) (hv : v ≠ none → 0 < E.size) :
    FlowOk n E G B P { s with fa := s.fa.set x v } :=
  ⟨o.hn, o.edges, o.hG, o.nodes, o.imb, o.cur, o.faS, o.sc, o.isIn, o.fl, o.queue, o.qne, o.ce, fun y hy hn => by
    have hn : (if y = x then v else s.fa.get y) ≠ none := hn
    split at hn
    · exact hv hn
    · exact o.hfa y hy hn⟩

section
variable [Zero D] [Sub D] [LT D] [DecidableLT D]

theorem toInt_safe (imax : Int) (k : Nat) : Safe (toInt imax k) (fun x => x = (k : Int)) := Safe.ck imax k

theorem ceilDiv_safe (imax num denom : Int) (h : denom ≠ 0) : Safe (ceilDiv imax num denom) (fun _ => True) := by
  unfold ceilDiv
  rw [if_neg h]
  exact (Safe.ck imax _).mono fun _ _ => trivial

theorem q_safe (N : NetOk n E G) (imax : Int) {s : Flow D} (o : FlowOk n E G B P s) {k : Nat} (hk : k < E.size) :
    Safe (q imax s k) (fun _ => True) := by
  unfold q
  refine (Safe.rd s.edges k (by rw [o.edges]; exact hk)).bind fun e he => ?_
  rw [o.edges] at he
  obtain ⟨h1, h2, h3, h4⟩ := N.edge k hk
  rw [← he] at h1 h2 h3 h4
  refine (Safe.rd s.scaling e.i (by rw [o.sc]; omega)).bind fun si _ => ?_
  refine (Safe.rd s.scaling e.j (by rw [o.sc]; omega)).bind fun sj _ => ?_
  refine (Safe.ck imax _).bind fun num _ => ?_
  refine (toInt_safe imax _).bind fun den hd => ?_
  refine (ceilDiv_safe imax num den (by omega)).bind fun c _ => ?_
  refine (Safe.ck imax _).bind fun t ht => (Safe.ck imax _).bind fun t1 ht1 => ?_
  refine (Safe.rd s.flows k (by rw [o.fl]; exact hk)).bind fun f _ => ?_
  split
  · exact trivial
  · split
    · exact trivial
    · exact (h4.2 t1 (by omega) (by omega)).bind fun b _ => (h4.2 t (by omega) (by omega)).bind fun a _ => trivial

omit [Zero D] [Sub D] [LT D] [DecidableLT D] in
theorem addFlow_safe' [Add D] [Neg D] (N : NetOk n E G) {s : Flow D} (o : FlowOk n E G B P s) {k : Nat} (hk : k < E.size) (x : D) :
    Safe (addFlowOfEdge s k x) (fun s' => FlowOk n E G B P s' ∧ s'.currentEdge = s.currentEdge) := by
  unfold addFlowOfEdge
  have ks : k < s.flows.size := by rw [o.fl]; exact hk
  refine (Safe.rd s.flows k ks).bind fun f _ => ?_
  refine (Safe.wr s.flows k _ ks).bind fun fl hfl => ?_
  have fs : fl.size = E.size := by rw [hfl]; exact o.fl
  refine (Safe.rd fl k (by rw [fs]; exact hk)).bind fun f' _ => ?_
  have hx : k ^^^ 1 < E.size := by
    have he := N.even
    have hd : (k ^^^ 1) / 2 = k / 2 := by
      rw [Nat.xor_div_two]
      simp
    omega
  refine (Safe.wr fl (k ^^^ 1) _ (by rw [fs]; exact hx)).bind fun fl' hfl' => ?_
  exact ⟨⟨o.hn, o.edges, o.hG, o.nodes, o.imb, o.cur, o.faS, o.sc, o.isIn, by rw [hfl']; exact fs, o.queue, o.qne, o.ce, o.hfa⟩, rfl⟩

omit [Zero D] [Sub D] [LT D] [DecidableLT D] in
theorem addFlow_safe [Add D] [Neg D] (N : NetOk n E G) {s : Flow D} (o : FlowOk n E G B P s) {k : Nat} (hk : k < E.size) (x : D) :
    Safe (addFlowOfEdge s k x) (FlowOk n E G B P) :=
  (addFlow_safe' N o hk x).mono fun _ h => h.1

omit [Sub D] in
theorem enqueue_safe {s : Flow D} (o : FlowOk n E G B P s) {x : Nat} (hx : x ≤ n) : Safe (enqueueActive s x) (FlowOk n E G B P) := by
  unfold enqueueActive
  refine (Safe.rd s.imbalances x (by rw [o.imb]; omega)).bind fun b _ => ?_
  split
  · unfold UQ.push
    have hs : x < s.uq.isIn.size := by rw [o.isIn]; omega
    refine Safe.bind (P := fun uq : UQ => uq.isIn.size = n + 1 ∧ (∀ y, y ∈ uq.queue → y ≤ n) ∧ (B → uq.queue ≠ [])) ?_ fun uq hu =>
      ⟨o.hn, o.edges, o.hG, o.nodes, o.imb, o.cur, o.faS, o.sc, hu.1, o.fl, hu.2.1, hu.2.2, o.ce, o.hfa⟩
    refine (Safe.rd s.uq.isIn x hs).bind fun b _ => ?_
    cases b with
    | true => exact ⟨o.isIn, o.queue, o.qne⟩
    | false =>
      refine (Safe.wr s.uq.isIn x true hs).bind fun v hv => ⟨by rw [hv]; exact o.isIn, fun y hy => ?_, fun _ => by simp⟩
      rcases List.mem_append.mp hy with h | h
      · exact o.queue y h
      · obtain rfl := List.mem_singleton.mp h
        exact hx
  · exact o

variable [Add D] [Neg D]

theorem pushEdge_safe (N : NetOk n E G) (imax : Int) {s : Flow D} (o : FlowOk n E G B P s) {k : Nat} (hk : k < E.size) :
    Safe (pushEdge imax s k) (FlowOk n E G B P) := by
  unfold pushEdge
  refine (Safe.rd s.edges k (by rw [o.edges]; exact hk)).bind fun e he => ?_
  rw [o.edges] at he
  obtain ⟨h1, h2, _⟩ := N.edge k hk
  rw [← he] at h1 h2
  refine (q_safe N imax o hk).bind fun x _ => ?_
  split
  · refine (Safe.rd s.imbalances e.i (by rw [o.imb]; omega)).bind fun bi _ => ?_
    refine (Safe.wr s.imbalances e.i _ (by rw [o.imb]; omega)).bind fun im him => ?_
    have s1 : im.size = n + 1 := by rw [him]; exact o.imb
    refine (Safe.rd im e.j (by rw [s1]; omega)).bind fun bj _ => ?_
    refine (Safe.wr im e.j _ (by rw [s1]; omega)).bind fun im' him' => ?_
    exact addFlow_safe N (o.setImb (by rw [him']; exact s1)) hk _
  · exact o

theorem pushAll_safe (N : NetOk n E G) (imax : Int) {s : Flow D} (o : FlowOk n E G B P s) :
    Safe (pushAllAdmissibleEdge imax s) (FlowOk n E G B P) := by
  unfold pushAllAdmissibleEdge
  refine (Safe.forRange s.edges.size 0 s o fun s' i _ hi o' => pushEdge_safe N imax o' (by rw [o.edges] at hi; omega)).bind fun s1 o1 => ?_
  exact Safe.forRange _ 0 s1 o1 fun s' i _ hi o' => enqueue_safe o' (by have := o1.hn; omega)

variable [BEq D] [LE D] [DecidableLE D]

omit [Neg D] in
theorem link_safe (N : NetOk n E G) (imax : Int) (fuel : Nat) {s : Flow D} (o : FlowOk n E G B P s) {p : Nat} (hp : p ≤ n)
    (hl : s.currentEdge.get p < (G.get p).length) :
    Safe (link imax fuel s p) (fun s' => FlowOk n E G B P s' ∧ s'.currentEdge = s.currentEdge) := by
  unfold link
  refine (Safe.rd s.G p (by rw [o.hG, N.Gsize]; omega)).bind fun g hg => ?_
  refine (Safe.rd s.currentEdge p (by rw [o.cur]; omega)).bind fun k hk => ?_
  have : k < g.length := by rw [hk, hg, o.hG]; exact hl
  refine (Safe.listRd this).bind fun e_id he => ?_
  obtain ⟨hE, hi⟩ := N.mem p e_id hp (by rw [← o.hG, ← hg]; exact he.2)
  refine (Safe.rd s.edges e_id (by rw [o.edges]; exact hE)).bind fun e hee => ?_
  rw [o.edges] at hee
  obtain ⟨h1, h2, _⟩ := N.edge e_id hE
  rw [← hee] at h1 h2
  refine (Safe.wr s.fa p _ (by rw [o.faS]; omega)).bind fun fa hfa => ?_
  rw [hfa]
  have o1 := o.setFa p (some e.j) fun _ => by omega
  refine (q_safe N imax o1 hE).bind fun v _ => ?_
  refine (LCT.Mem.setVal_safe fuel o.nodes (by omega : p < n + 1) v).bind fun h hh => ?_
  refine (LCT.Mem.setFa_safe fuel hh (by omega : p < n + 1) (by omega : e.j < n + 1)).bind fun h' hh' => ?_
  exact ⟨o1.setNodes hh', rfl⟩

theorem cut_safe (N : NetOk n E G) (imax : Int) (fuel : Nat) {s : Flow D} (o : FlowOk n E G B P s) {p : Nat} (hp : p ≤ n)
    (hl : s.currentEdge.get p < (G.get p).length) :
    Safe (cut imax fuel s p) (fun s' => FlowOk n E G B P s' ∧ s'.currentEdge = s.currentEdge) := by
  unfold cut
  refine (Safe.wr s.fa p _ (by rw [o.faS]; omega)).bind fun fa hfa => ?_
  rw [hfa]
  have o1 := o.setFa p none fun h => absurd rfl h
  refine (LCT.Mem.cut_safe fuel o.nodes (by omega : p < n + 1)).bind fun h hh => ?_
  refine (Safe.rd s.G p (by rw [o.hG, N.Gsize]; omega)).bind fun g hg => ?_
  refine (Safe.rd s.currentEdge p (by rw [o.cur]; omega)).bind fun k hk => ?_
  have : k < g.length := by rw [hk, hg, o.hG]; exact hl
  refine (Safe.listRd this).bind fun e_id he => ?_
  obtain ⟨hE, hi⟩ := N.mem p e_id hp (by rw [← o.hG, ← hg]; exact he.2)
  refine (q_safe N imax (o1.setNodes hh) hE).bind fun v _ => ?_
  refine (LCT.Mem.getVal_safe fuel hh (by omega : p < n + 1)).bind fun r hr => ?_
  obtain ⟨w, h'⟩ := r
  have o2 := o1.setNodes hr
  exact addFlow_safe' N o2 hE (v - w)

theorem sendPush_safe (fuel : Nat) {s : Flow D} (o : FlowOk n E G B P s) {p root : Nat} (hp : p ≤ n) (hr : root ≤ n) (x : D) :
    Safe (sendPush fuel s p root x) (FlowOk n E G B P) := by
  unfold sendPush
  refine (LCT.Mem.addValWayToRoot_safe fuel o.nodes (by omega : p < n + 1) (-x)).bind fun h hh => ?_
  have o1 := o.setNodes hh
  refine (Safe.rd s.imbalances p (by rw [o.imb]; omega)).bind fun bp _ => ?_
  refine (Safe.wr s.imbalances p _ (by rw [o.imb]; omega)).bind fun im him => ?_
  have s1 : im.size = n + 1 := by rw [him]; exact o.imb
  refine (Safe.rd im root (by rw [s1]; omega)).bind fun br _ => ?_
  refine (Safe.wr im root _ (by rw [s1]; omega)).bind fun im' him' => ?_
  exact enqueue_safe (o1.setImb (by rw [him']; exact s1)) hr

/-- all current edges are within bounds -/
abbrev AllOk (n : Nat) (E : Vec (OmegaLimit D)) (G : Vec (List Nat)) (B : Prop) (s : Flow D) : Prop := FlowOk n E G B (fun _ => False) s

theorem sendLoop_safe (N : NetOk n E G) (imax : Int) (fuel0 : Nat) {p : Nat} (hp : p ≤ n) (hE : 0 < E.size) : ∀ (fuel : Nat) {s : Flow D} {root : Nat},
    AllOk n E G B s → root ≤ n → Safe (sendLoop imax fuel0 p fuel s root) (AllOk n E G B)
  | 0, _, _, _, _ => .fuel
  | fuel + 1, s, root, o, hr => by
    unfold sendLoop
    split
    · refine (LCT.Mem.getMin_safe fuel0 o.nodes (by omega : p < n + 1)).bind fun r hm => ?_
      obtain ⟨⟨m1, m2⟩, h⟩ := r
      obtain ⟨⟨m, hm1, hm2⟩, hh⟩ := hm
      obtain rfl : m2 = some m := hm1
      have o1 := o.setNodes hh
      refine (Safe.rd s.imbalances p (by rw [o.imb]; omega)).bind fun bp _ => ?_
      dsimp only
      split
      · exact sendPush_safe fuel0 o1 hp hr bp
      · refine (sendPush_safe fuel0 o1 hp hr m1).bind fun s2 o2 => ?_
        show Safe (cut imax fuel0 s2 m >>= _) _
        refine (cut_safe N imax fuel0 o2 (by omega : m ≤ n) (o2.ce m (by omega) id hE)).bind fun s3 o3 => ?_
        exact sendLoop_safe N imax fuel0 hp hE fuel o3.1 (by omega)
    · exact o

theorem send_safe (N : NetOk n E G) (imax : Int) (fuel : Nat) {p : Nat} (hp : p ≤ n) (hE : 0 < E.size) {s : Flow D} (o : AllOk n E G B s) :
    Safe (send imax fuel s p) (AllOk n E G B) := by
  unfold send
  refine (LCT.Mem.findRoot_safe fuel o.nodes (by omega : p < n + 1)).bind fun r hr => ?_
  obtain ⟨root, h⟩ := r
  exact sendLoop_safe N imax fuel hp hE fuel (o.setNodes hr.2) (by have := hr.1; omega)

theorem cutChildren_safe (N : NetOk n E G) (imax : Int) (fuel : Nat) {p : Nat} (hp : p ≤ n) : ∀ (es : List Nat) {s : Flow D},
    (∀ e, e ∈ es → e ∈ G.get p) → FlowOk n E G B (· = p) s → Safe (cutChildren imax fuel p es s) (FlowOk n E G B (· = p))
  | [], _, _, o => o
  | k :: es, s, hes, o => by
    unfold cutChildren
    obtain ⟨hE, hi⟩ := N.mem p k hp (hes k (List.mem_cons_self ..))
    refine (Safe.rd s.edges k (by rw [o.edges]; exact hE)).bind fun e hee => ?_
    rw [o.edges] at hee
    obtain ⟨h1, h2, h3, _⟩ := N.edge k hE
    rw [hi, ← hee] at h3
    rw [← hee] at h2
    refine (Safe.rd s.fa e.j (by rw [o.faS]; omega)).bind fun f _ => ?_
    split
    · refine (cut_safe N imax fuel o h2 (o.ce e.j h2 (fun h => h3 h.symm) (by omega))).bind fun s' o' => ?_
      exact cutChildren_safe N imax fuel hp es (fun e he => hes e (List.mem_cons_of_mem _ he)) o'.1
    · exact cutChildren_safe N imax fuel hp es (fun e he => hes e (List.mem_cons_of_mem _ he)) o

theorem updateScaling_safe (N : NetOk n E G) (imax : Int) (fuel : Nat) {p : Nat} (hp : p ≤ n) {s : Flow D} (o : FlowOk n E G B (· = p) s) :
    Safe (updateScaling imax fuel s p) (AllOk n E G B) := by
  unfold updateScaling
  refine (Safe.rd s.G p (by rw [o.hG, N.Gsize]; omega)).bind fun g hg => ?_
  refine (cutChildren_safe N imax fuel hp g (fun e he => by rw [← o.hG, ← hg]; exact he) o).bind fun s1 o1 => ?_
  refine (Safe.rd s1.scaling p (by rw [o1.sc]; omega)).bind fun v _ => ?_
  refine (Safe.ck imax _).bind fun v' _ => ?_
  refine (Safe.wr s1.scaling p _ (by rw [o1.sc]; omega)).bind fun sc hsc => ?_
  refine (Safe.wr s1.currentEdge p _ (by rw [o1.cur]; omega)).bind fun ce hce => ?_
  refine ⟨o1.hn, o1.edges, o1.hG, o1.nodes, o1.imb, by rw [hce]; exact o1.cur, o1.faS, by rw [hsc]; exact o1.sc, o1.isIn, o1.fl, o1.queue, o1.qne,
    fun x hx _ hE => ?_, o1.hfa⟩
  show ce.get x < _
  rw [hce, Vec.set_get']
  split
  · exact List.length_pos_iff.mpr (N.ne hE x hx)
  · next h => exact o1.ce x hx h hE

theorem choiceLoop_safe (N : NetOk n E G) (imax : Int) (fuel0 : Nat) {p : Nat} (hp : p ≤ n) : ∀ (fuel : Nat) {s : Flow D},
    FlowOk n E G B (· = p) s → Safe (choiceLoop imax fuel0 p fuel s) (AllOk n E G B)
  | 0, _, _ => .fuel
  | fuel + 1, s, o => by
    unfold choiceLoop
    refine (Safe.rd s.currentEdge p (by rw [o.cur]; omega)).bind fun k hk => ?_
    refine (Safe.rd s.G p (by rw [o.hG, N.Gsize]; omega)).bind fun g hg => ?_
    split
    · next hlt =>
      refine (Safe.listRd hlt).bind fun e_id he => ?_
      obtain ⟨hE, hi⟩ := N.mem p e_id hp (by rw [← o.hG, ← hg]; exact he.2)
      refine (q_safe N imax o hE).bind fun x _ => ?_
      have hl : s.currentEdge.get p < (G.get p).length := by rw [← hk, ← o.hG, ← hg]; exact hlt
      split
      · have hce : ∀ x, x ≤ n → ¬ False → 0 < E.size → s.currentEdge.get x < (G.get x).length := by
          intro x hx _ h0
          by_cases hxp : x = p
          · rw [hxp]; exact hl
          · exact o.ce x hx hxp h0
        have oA : AllOk n E G B s := { o with ce := hce }
        exact (link_safe N imax fuel0 oA hp hl).bind fun s' o' => send_safe N imax fuel0 hp (by omega) o'.1
      · refine (Safe.wr s.currentEdge p _ (by rw [o.cur]; omega)).bind fun ce hce => ?_
        refine choiceLoop_safe N imax fuel0 hp fuel
          ⟨o.hn, o.edges, o.hG, o.nodes, o.imb, by rw [hce]; exact o.cur, o.faS, o.sc, o.isIn, o.fl, o.queue, o.qne, fun x hx hxp h0 => ?_, o.hfa⟩
        show ce.get x < _
        rw [hce, Vec.set_get', if_neg hxp]
        exact o.ce x hx hxp h0
    · exact updateScaling_safe N imax fuel0 hp o

theorem refineStep_safe (N : NetOk n E G) (imax : Int) (fuel : Nat) {s : Flow D} (o : AllOk n E G False s) (hq : s.uq.queue ≠ []) :
    Safe (refineStep imax fuel s) (AllOk n E G False) := by
  have oT : AllOk n E G True s := { o with qne := fun _ => hq }
  have front : ∀ {t : Flow D}, AllOk n E G True t → Safe t.uq.front (fun p => p ≤ n) := by
    intro t ot
    unfold UQ.front
    have h1 := ot.qne trivial
    have h2 := ot.queue
    cases hql : t.uq.queue with
    | nil => exact absurd hql h1
    | cons p l => exact h2 p (by rw [hql]; exact List.mem_cons_self ..)
  unfold refineStep
  refine (front oT).bind fun p hp => ?_
  refine (choiceLoop_safe N imax fuel hp fuel (oT.mono fun x h => h.elim)).bind fun s1 o1 => ?_
  have oF : AllOk n E G False s1 := { o1 with qne := fun h => h.elim }
  refine (front o1).bind fun p' hp' => ?_
  refine (Safe.rd s1.imbalances p' (by rw [o1.imb]; omega)).bind fun b _ => ?_
  split
  · refine Safe.bind (P := fun uq : UQ => uq.isIn.size = n + 1 ∧ ∀ y, y ∈ uq.queue → y ≤ n) ?_ fun uq hu => ?_
    · unfold UQ.pop
      have h1 := o1.qne trivial
      have h2 := o1.queue
      cases hql : s1.uq.queue with
      | nil => exact absurd hql h1
      | cons x l =>
        have hx := h2 x (by rw [hql]; exact List.mem_cons_self ..)
        refine (Safe.wr s1.uq.isIn x false (by rw [o1.isIn]; omega)).bind fun v hv => ?_
        exact ⟨by rw [hv]; exact o1.isIn, fun y hy => h2 y (by rw [hql]; exact List.mem_cons_of_mem _ hy)⟩
    · exact ⟨o1.hn, o1.edges, o1.hG, o1.nodes, o1.imb, o1.cur, o1.faS, o1.sc, hu.1, o1.fl, hu.2, fun h => h.elim, o1.ce, o1.hfa⟩
  · exact oF

theorem refine_safe (N : NetOk n E G) (imax : Int) (fuel : Nat) {s : Flow D} (o : AllOk n E G False s) :
    Safe (refine imax fuel s) (AllOk n E G False) := by
  unfold refine
  refine (Safe.whileLoop (P := AllOk n E G False) (fun t _ => Safe.ok trivial) (fun t ot hc => ?_) fuel s o).bind fun s1 o1 => ?_
  · refine refineStep_safe N imax fuel ot fun h => ?_
    simp [UQ.empty, h] at hc
  · refine Safe.forRange _ 0 s1 o1 fun t i _ hi ot => ?_
    have hi : i ≤ n := by have := o1.hn; omega
    unfold cutIfLinked
    refine (Safe.rd t.fa i (by rw [ot.faS]; omega)).bind fun f hf => ?_
    split
    · next h =>
      exact (cut_safe N imax fuel ot hi (ot.ce i hi id (ot.hfa i hi (by rw [← hf]; exact h)))).mono fun _ h => h.1
    · exact ot

theorem phases_safe (N : NetOk n E G) (imax : Int) (fuel : Nat) {s : Flow D} (o : AllOk n E G False s) :
    Safe (phases imax fuel s) (AllOk n E G False) := by
  unfold phases
  refine Safe.whileLoop (P := AllOk n E G False) (fun t _ => Safe.ok trivial) (fun t ot _ => ?_) fuel s o
  unfold phase
  have oi : AllOk n E G False (initialization t) :=
    ⟨ot.hn, ot.edges, ot.hG, ot.nodes, ot.imb, ot.cur, ot.faS, ot.sc, ot.isIn, ot.fl, ot.queue, ot.qne,
      fun x hx _ h0 => List.length_pos_iff.mpr (N.ne h0 x hx), ot.hfa⟩
  refine (pushAll_safe N imax oi).bind fun s1 o1 => ?_
  refine (refine_safe N imax fuel o1).bind fun s2 o2 => ?_
  exact ⟨o2.hn, o2.edges, o2.hG, o2.nodes, o2.imb, o2.cur, o2.faS, o2.sc, o2.isIn, o2.fl, o2.queue, o2.qne, o2.ce, o2.hfa⟩

theorem minCost_safe [Mul D] [Div D] [IntCast D] (N : NetOk n E G) (imax : Int) (fuel : Nat) {s : Flow D} (o : AllOk n E G False s) :
    Safe (minCost imax fuel s) (fun _ => True) := by
  unfold minCost
  refine (phases_safe N imax fuel o).bind fun s1 o1 => ?_
  refine Safe.bind (P := fun _ => True) ?_ fun r _ => trivial
  refine (Safe.forRange (P := fun as : D × Flow D => as.2.edges.size = E.size ∧ as.2.flows.size = E.size ∧
      ∀ k, k < E.size → (as.2.edges.get k).toMuLimit.Callable) _ 0 (0, s1)
      ⟨by rw [o1.edges], o1.fl, fun k hk => by rw [o1.edges]; exact (N.edge k hk).2.2.2⟩ fun as k _ hk h => ?_).mono fun _ _ => trivial
  rw [o1.edges] at hk
  obtain ⟨a, t⟩ := as
  obtain ⟨h1, h2, h3⟩ := h
  have hk : k < E.size := by omega
  unfold addEdgeMin
  dsimp only
  refine (Safe.rd t.edges k (by rw [h1]; exact hk)).bind fun e he => ?_
  refine (Safe.rd t.flows k (by rw [h2]; exact hk)).bind fun x _ => ?_
  have hc := h3 k hk
  rw [← he] at hc
  have hc' : MuLimit.Callable ({ e with fn := fun w => do let v ← e.fn w; .ok (v - x * (w : D)) } : OmegaLimit D).toMuLimit :=
    ⟨hc.1, fun y hy hy' => (hc.2 y hy hy').bind fun _ _ => trivial⟩
  refine (Safe.wr t.edges k _ (by rw [h1]; exact hk)).bind fun E' hE => ?_
  refine (minimum_safe imax fuel hc').bind fun m _ => ?_
  refine ⟨by rw [hE]; exact h1, h2, fun j hj => ?_⟩
  show (E'.get j).toMuLimit.Callable
  rw [hE, Vec.set_get']
  split
  · exact hc'
  · exact h3 j hj

end

/-- doubling the edges; `m` limits are still to be copied -/
theorem doubleEdges_safe (imax : Int) {lim : Nat → OmegaLimit D} {L : Nat} (hl : ∀ k, k < L → EdgeOk n (lim k)) :
    ∀ (m : Nat) (E : Vec (OmegaLimit D)), m ≤ L → E.size = L * 2 → (∀ k, k < m → E.get k = lim k) →
    (∀ k, m ≤ k → k < L → E.get (2 * k) = lim k ∧ EdgeOk n (E.get (2 * k + 1)) ∧ (E.get (2 * k + 1)).i = (lim k).j) →
    Safe (doubleEdges imax m E) (fun E' => E'.size = L * 2 ∧
      ∀ k, k < L → E'.get (2 * k) = lim k ∧ EdgeOk n (E'.get (2 * k + 1)) ∧ (E'.get (2 * k + 1)).i = (lim k).j)
  | 0, _, _, hs, _, hd => ⟨hs, fun k hk => hd k (Nat.zero_le _) hk⟩
  | k + 1, E, hm, hs, hu, hd => by
    unfold doubleEdges
    dsimp only
    have hk2 : 2 * k / 2 = k := by omega
    rw [hk2]
    refine (Safe.rd E k (by omega)).bind fun a ha => ?_
    rw [hu k (by omega)] at ha
    refine (Safe.wr E (2 * k) _ (by omega)).bind fun E1 hE1 => ?_
    have s1 : E1.size = L * 2 := by rw [hE1]; exact hs
    refine (Safe.rd E1 (2 * k) (by omega)).bind fun b hb => ?_
    rw [hE1, Vec.set_get', if_pos rfl, ha] at hb
    refine (Safe.wr E1 (2 * k + 1) _ (by omega)).bind fun E2 hE2 => ?_
    have s2 : E2.size = L * 2 := by rw [hE2]; exact s1
    refine (Safe.rd E2 (2 * k + 1) (by omega)).bind fun c hc => ?_
    rw [hE2, Vec.set_get', if_pos rfl, hb] at hc
    have ok := hl k (by omega)
    rw [hc]
    refine (reverse_safe imax ok.2.2.2).bind fun r hr => ?_
    refine (Safe.wr E2 (2 * k + 1) _ (by omega)).bind fun E3 hE3 => ?_
    have get : ∀ j, E3.get j = if j = 2 * k + 1 then r else if j = 2 * k then lim k else E.get j := by
      intro j
      rw [hE3, hE2, hE1, Vec.set_get', Vec.set_get', Vec.set_get', ha]
      split
      · rfl
      · rfl
    refine doubleEdges_safe imax hl k E3 (by omega) (by rw [hE3]; exact s2) (fun j hj => ?_) fun j h1 h2 => ?_
    · rw [get, if_neg (by omega), if_neg (by omega)]
      exact hu j (by omega)
    · rw [get, get]
      by_cases hjk : j = k
      · subst hjk
        rw [if_neg (by omega), if_pos rfl, if_pos rfl]
        refine ⟨rfl, ⟨?_, ?_, ?_, hr.2.2⟩, hr.1⟩
        · rw [hr.1]; exact ok.2.1
        · rw [hr.2.1]; exact ok.1
        · rw [hr.1, hr.2.1]; exact fun h => ok.2.2.1 h.symm
      · rw [if_neg (by omega), if_neg (by omega), if_neg (by omega), if_neg (by omega)]
        exact hd j (by omega) h2

theorem epsilonLoop_safe (imax : Int) (n : Nat) (U : Int) (fuel : Nat) (eps : Int) : Safe (epsilonLoop imax n U fuel eps) (fun _ => True) := by
  unfold epsilonLoop
  refine Safe.whileLoop (P := fun _ => True) (fun t _ => ?_) (fun t _ _ => ?_) fuel eps trivial
  · refine (toInt_safe imax _).bind fun n1 _ => (Safe.ck imax _).bind fun a _ => (Safe.ck imax _).bind fun b _ => ?_
    trivial
  · refine (Safe.ck imax _).bind fun a _ => ?_
    split
    · trivial
    · exact .assertFail

theorem getD_get {α : Type} {l : List α} {k : Nat} {x : α} (h : k < l.length) : l.getD k x = l[k] := by
  rw [List.getD_eq_getElem?_getD, List.getElem?_eq_getElem h]
  rfl

theorem mk'_safe [Zero D] (imax : Int) (fuel : Nat) (n : Nat) (M : D) (U : Int) {limits : List (OmegaLimit D)} (hl : ∀ e, e ∈ limits → EdgeOk n e)
    (hc : limits ≠ [] → ∀ x, x ≤ n → ∃ e, e ∈ limits ∧ (e.i = x ∨ e.j = x)) :
    Safe (mk' imax fuel n M U limits) (fun s => ∃ E G, NetOk n E G ∧ AllOk n E G False s) := by
  unfold mk'
  refine (epsilonLoop_safe imax n U fuel 1).bind fun eps _ => ?_
  refine (toInt_safe imax (n + 1)).bind fun n1 hn => ?_
  rw [if_pos (by omega)]
  by_cases hU : U ≤ (eps.tdiv 2).tdiv n1
  case neg =>
    rw [if_neg hU]
    exact .assertFail
  rw [if_pos hU]
  dsimp only
  refine (doubleEdges_safe (n := n) imax (lim := fun k => limits.getD k default) (L := limits.length) (fun k hk => ?_) limits.length _ (Nat.le_refl _) rfl
    (fun k hk => ?_) (fun k h1 h2 => absurd h2 (by omega))).bind fun E hE => ?_
  · rw [getD_get hk]
    exact hl _ (List.getElem_mem hk)
  · show (if k < limits.length then _ else _) = _
    rw [if_pos hk]
    rfl
  obtain ⟨hs, hE⟩ := hE
  have hlim : ∀ k, k < limits.length → EdgeOk n (limits.getD k default) := fun k hk => by
    rw [getD_get hk]
    exact hl _ (List.getElem_mem hk)
  have edge : ∀ k, k < E.size → EdgeOk n (E.get k) := by
    intro k hk
    rcases Nat.mod_two_eq_zero_or_one k with h | h
    · rw [show k = 2 * (k / 2) by omega, (hE (k / 2) (by omega)).1]
      exact hlim _ (by omega)
    · rw [show k = 2 * (k / 2) + 1 by omega]
      exact (hE (k / 2) (by omega)).2.1
  refine (Safe.forRange' (P := fun m (G : Vec (List Nat)) => G.size = n + 1 ∧ (∀ x k, k ∈ G.get x → k < E.size ∧ (E.get k).i = x) ∧
      ∀ k, k < m → k ∈ G.get (E.get k).i) E.size 0 (Vec.replicate (n + 1) [])
    ⟨rfl, fun x k h => (List.not_mem_nil h).elim, fun k h => absurd h (Nat.not_lt_zero _)⟩ fun G k _ hk h => ?_).bind fun G hG => ?_
  · obtain ⟨h1, h2, h3⟩ := h
    have hk : k < E.size := by omega
    refine (Safe.rd E k hk).bind fun e he => ?_
    have hi : e.i < G.size := by
      have := (edge k hk).1
      rw [he]
      omega
    refine (Safe.rd G e.i hi).bind fun g hg => ?_
    refine (Safe.wr G e.i _ hi).mono fun G' hG' => ⟨by rw [hG']; exact h1, fun x j hj => ?_, fun j hj => ?_⟩
    · rw [hG', Vec.set_get'] at hj
      split at hj
      · next hx =>
        rcases List.mem_append.mp hj with h | h
        · rw [hg] at h
          rw [hx]
          exact h2 _ j h
        · obtain rfl := List.mem_singleton.mp h
          exact ⟨hk, by rw [hx, he]⟩
      · exact h2 x j hj
    · rw [hG', Vec.set_get']
      by_cases hjk : j = k
      · subst hjk
        rw [if_pos (by rw [he])]
        simp
      · have := h3 j (by omega)
        split
        · next hx =>
          rw [hx] at this
          rw [hg]
          exact List.mem_append_left _ this
        · exact this
  obtain ⟨hG1, hG2, hG3⟩ := hG
  have N : NetOk n E G := ⟨by omega, edge, hG1, fun x k _ h => hG2 x k h, fun h0 x hx => by
    have hne : limits ≠ [] := by
      intro h
      rw [h] at hs
      simp at hs
      omega
    obtain ⟨e, hm, hx⟩ := hc hne x hx
    obtain ⟨k, hk, rfl⟩ := List.getElem_of_mem hm
    obtain ⟨h1, _, h3⟩ := hE k hk
    rw [getD_get hk] at h1 h3
    rcases hx with hx | hx
    · have := hG3 (2 * k) (by omega)
      rw [h1, hx] at this
      exact List.ne_nil_of_mem this
    · have := hG3 (2 * k + 1) (by omega)
      rw [h3, hx] at this
      exact List.ne_nil_of_mem this⟩
  refine ⟨E, G, N, ⟨rfl, rfl, rfl, LCT.Mem.init_ok _, rfl, rfl, rfl, rfl, rfl, rfl, fun x hx => (List.not_mem_nil hx).elim, fun h => h.elim,
    fun x hx _ h0 => List.length_pos_iff.mpr (N.ne h0 x hx), fun x _ h => absurd rfl h⟩⟩

end Flow
end AHO
