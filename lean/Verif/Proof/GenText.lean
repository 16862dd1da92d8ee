import Std.Data.String.ToInt
import Verif.Proof.Generator
import Verif.Model.GraphText
/-!
# The text which describes a random test

The lines of the text can be read back: a number ends at the first character which is not a digit, a minus or a point.
-/

namespace AHO
namespace Gen

/-- a character of a number -/
def NumChar (c : Char) : Prop := c.isDigit = true ∨ c = '-' ∨ c = '.'

/-- a text which consists of such characters -/
def Num (s : List Char) : Prop := ∀ c ∈ s, NumChar c

theorem Num.append {a b : List Char} (ha : Num a) (hb : Num b) : Num (a ++ b) := fun c hc => (List.mem_append.1 hc).elim (ha c) (hb c)

theorem num_cancel {c : Char} (hc : ¬ NumChar c) {s t : List Char} : ∀ {a b : List Char}, Num a → Num b → a ++ c :: s = b ++ c :: t → a = b ∧ s = t
  | [], [], _, _, h => by simpa using h
  | [], y :: b, _, hb, h => by
    simp only [List.nil_append, List.cons_append, List.cons.injEq] at h
    exact absurd (h.1 ▸ hb y List.mem_cons_self) hc
  | x :: a, [], ha, _, h => by
    simp only [List.nil_append, List.cons_append, List.cons.injEq] at h
    exact absurd (h.1 ▸ ha x List.mem_cons_self) hc
  | x :: a, y :: b, ha, hb, h => by
    simp only [List.cons_append, List.cons.injEq] at h
    obtain ⟨rfl, h⟩ := h
    obtain ⟨h1, h2⟩ := num_cancel hc (fun z hz => ha z (List.mem_cons_of_mem _ hz)) (fun z hz => hb z (List.mem_cons_of_mem _ hz)) h
    exact ⟨by rw [h1], h2⟩

theorem num_nat (n : Nat) : Num (toString n).toList := by
  intro c hc
  have h : c ∈ Nat.toDigits 10 n := by
    have e : (toString n).toList = Nat.toDigits 10 n := by
      show (Nat.repr n).toList = _
      simp [Nat.repr]
    rwa [e] at hc
  exact .inl (Nat.isDigit_of_mem_toDigits (by decide) (by decide) h)

theorem num_int (z : Int) : Num (toString z).toList := by
  cases z with
  | ofNat n => exact num_nat n
  | negSucc n =>
    have e : (toString (Int.negSucc n)).toList = '-' :: (toString (n + 1)).toList := by
      show ("-" ++ Nat.repr (n + 1)).toList = _
      simp
    rw [e]
    intro c hc
    rcases List.mem_cons.1 hc with rfl | hc
    · exact .inr (.inl rfl)
    · exact num_nat _ c hc

theorem nat_inj {m n : Nat} (h : (toString m).toList = (toString n).toList) : m = n := Nat.repr_injective (String.toList_inj.1 h)

theorem int_inj {m n : Int} (h : (toString m).toList = (toString n).toList) : m = n := Int.repr_injective (String.toList_inj.1 h)

/-- the decimals -/
def quarters (k : Nat) : String := match k with | 0 => ".00" | 1 => ".25" | 2 => ".50" | _ => ".75"

theorem fmt_eq (z : Int) : (fmt z).toList = (if z < 0 then ['-'] else []) ++ ((toString (z.natAbs / 4)).toList ++ (quarters (z.natAbs % 4)).toList) := by
  unfold fmt
  simp only [String.toList_append, List.append_assoc]
  congr 1
  split <;> rfl

theorem num_quarters (k : Nat) : Num (quarters k).toList := by
  unfold quarters
  have h : ∀ c, c ∈ [".00".toList, ".25".toList, ".50".toList, ".75".toList].flatten → NumChar c := by
    unfold NumChar
    decide
  split <;> intro c hc <;> refine h c ?_ <;> simp at hc ⊢ <;> tauto

theorem num_fmt (z : Int) : Num (fmt z).toList := by
  rw [fmt_eq]
  refine Num.append ?_ (Num.append (num_nat _) (num_quarters _))
  split
  · intro c hc; exact .inr (.inl (by simpa using hc))
  · intro c hc; cases hc

theorem point_cancel : ∀ {a b s t : List Char}, (∀ c ∈ a, c.isDigit = true) → (∀ c ∈ b, c.isDigit = true) → a ++ '.' :: s = b ++ '.' :: t → a = b ∧ s = t
  | [], [], _, _, _, _, h => by simpa using h
  | [], y :: b, _, _, _, hb, h => by
    simp only [List.nil_append, List.cons_append, List.cons.injEq] at h
    exact absurd (h.1 ▸ hb y List.mem_cons_self) (by decide)
  | x :: a, [], _, _, ha, _, h => by
    simp only [List.nil_append, List.cons_append, List.cons.injEq] at h
    exact absurd (h.1 ▸ ha x List.mem_cons_self) (by decide)
  | x :: a, y :: b, _, _, ha, hb, h => by
    simp only [List.cons_append, List.cons.injEq] at h
    obtain ⟨rfl, h⟩ := h
    obtain ⟨h1, h2⟩ := point_cancel (fun z hz => ha z (List.mem_cons_of_mem _ hz)) (fun z hz => hb z (List.mem_cons_of_mem _ hz)) h
    exact ⟨by rw [h1], h2⟩

theorem digits_nat (n : Nat) : ∀ c ∈ (toString n).toList, c.isDigit = true := by
  intro c hc
  have e : (toString n).toList = Nat.toDigits 10 n := by
    show (Nat.repr n).toList = _
    simp [Nat.repr]
  rw [e] at hc
  exact Nat.isDigit_of_mem_toDigits (by decide) (by decide) hc

theorem quarters_eq (k : Nat) : ∃ s, (quarters k).toList = '.' :: s ∧ (k < 4 → (k = 0 ∧ s = ['0', '0'] ∨ k = 1 ∧ s = ['2', '5'] ∨ k = 2 ∧ s = ['5', '0'] ∨ k = 3 ∧ s = ['7', '5'])) := by
  match k with
  | 0 => exact ⟨['0', '0'], rfl, by simp⟩
  | 1 => exact ⟨['2', '5'], rfl, by simp⟩
  | 2 => exact ⟨['5', '0'], rfl, by simp⟩
  | 3 => exact ⟨['7', '5'], rfl, by simp⟩
  | k + 4 => exact ⟨['7', '5'], by simp [quarters], by omega⟩

theorem fmt_inj {z w : Int} (h : (fmt z).toList = (fmt w).toList) : z = w := by
  rw [fmt_eq, fmt_eq] at h
  obtain ⟨s, hs, hs'⟩ := quarters_eq (z.natAbs % 4)
  obtain ⟨t, ht, ht'⟩ := quarters_eq (w.natAbs % 4)
  rw [hs, ht] at h
  have key : (toString (z.natAbs / 4)).toList ++ '.' :: s = (toString (w.natAbs / 4)).toList ++ '.' :: t → z.natAbs = w.natAbs := by
    intro h
    obtain ⟨h1, h2⟩ := point_cancel (digits_nat _) (digits_nat _) h
    have h1 := nat_inj h1
    have h3 : z.natAbs % 4 = w.natAbs % 4 := by
      subst h2
      rcases hs' (by omega) with ⟨a, b⟩ | ⟨a, b⟩ | ⟨a, b⟩ | ⟨a, b⟩ <;> rcases ht' (by omega) with ⟨c, d⟩ | ⟨c, d⟩ | ⟨c, d⟩ | ⟨c, d⟩ <;>
        first | omega | (rw [b] at d; exact absurd d (by decide))
    omega
  have ne : ∀ (n : Nat) (r : List Char) (r' : List Char), (toString n).toList ++ '.' :: r ≠ '-' :: r' := by
    intro n r r' h
    cases hd : (toString n).toList with
    | nil => rw [hd] at h; simp at h
    | cons c l =>
      rw [hd] at h
      have := digits_nat n c (by rw [hd]; exact List.mem_cons_self)
      simp only [List.cons_append, List.cons.injEq] at h
      rw [h.1] at this
      exact absurd this (by decide)
  by_cases hz : z < 0 <;> by_cases hw : w < 0
  · rw [if_pos hz, if_pos hw] at h
    have := key (by simpa using h)
    omega
  · rw [if_pos hz, if_neg hw] at h
    exact absurd h.symm (ne _ _ _)
  · rw [if_neg hz, if_pos hw] at h
    exact absurd h (ne _ _ _)
  · rw [if_neg hz, if_neg hw] at h
    have := key (by simpa using h)
    omega

theorem fnText_cancel {f g : Int × Int × Int} {s t : List Char} (h : (fnText f).toList ++ s = (fnText g).toList ++ t) : f = g ∧ s = t := by
  unfold fnText at h
  simp only [String.toList_append, List.append_assoc] at h
  have e1 : " * x * x + ".toList = ' ' :: "* x * x + ".toList := rfl
  have e2 : " * x + ".toList = ' ' :: "* x + ".toList := rfl
  have e3 : "; }".toList = ';' :: " }".toList := rfl
  have h := List.append_cancel_left h
  rw [e1, e2, e3] at h
  simp only [List.cons_append] at h
  obtain ⟨h1, h⟩ := num_cancel (by unfold NumChar; decide) (num_fmt _) (num_fmt _) h
  obtain ⟨h2, h⟩ := num_cancel (by unfold NumChar; decide) (num_fmt _) (num_fmt _) (List.append_cancel_left h)
  obtain ⟨h3, h⟩ := num_cancel (by unfold NumChar; decide) (num_fmt _) (num_fmt _) (List.append_cancel_left h)
  exact ⟨Prod.ext (fmt_inj h1) (Prod.ext (fmt_inj h2) (fmt_inj h3)), List.append_cancel_left h⟩

theorem desc_ext {d e : Desc} (h1 : d.l = e.l) (h2 : d.u = e.u) (h3 : d.fn = e.fn) : d = e := by
  cases d; cases e
  simp only [Desc.fn, Prod.mk.injEq] at h1 h2 h3
  obtain ⟨h3, h4, h5⟩ := h3
  subst h1 h2 h3 h4 h5
  rfl

theorem nodeLine_cancel {d e : Desc} {s t : List Char} (h : (nodeLine d).toList ++ s = (nodeLine e).toList ++ t) : d = e ∧ s = t := by
  unfold nodeLine at h
  simp only [String.toList_append, List.append_assoc] at h
  have e1 : ", ".toList = ',' :: " ".toList := rfl
  have h := List.append_cancel_left h
  rw [e1] at h
  simp only [List.cons_append] at h
  obtain ⟨h1, h⟩ := num_cancel (by unfold NumChar; decide) (num_int _) (num_int _) h
  obtain ⟨h2, h⟩ := num_cancel (by unfold NumChar; decide) (num_int _) (num_int _) (List.append_cancel_left h)
  obtain ⟨h3, h⟩ := fnText_cancel (List.append_cancel_left h)
  exact ⟨desc_ext (int_inj h1) (int_inj h2) h3, List.append_cancel_left h⟩

theorem pairLine_cancel {p q : Int × Int} {d e : Desc} {s t : List Char} (h : (pairLine p d).toList ++ s = (pairLine q e).toList ++ t) :
    ((p.1 + 1).toNat = (q.1 + 1).toNat ∧ (p.2 + 1).toNat = (q.2 + 1).toNat ∧ d = e) ∧ s = t := by
  unfold pairLine at h
  simp only [String.toList_append, List.append_assoc] at h
  have e1 : ", ".toList = ',' :: " ".toList := rfl
  have e2 : "}\n".toList = '}' :: "\n".toList := rfl
  have h := List.append_cancel_left h
  rw [e1, e2] at h
  simp only [List.cons_append] at h
  obtain ⟨h1, h⟩ := num_cancel (by unfold NumChar; decide) (num_int _) (num_int _) h
  obtain ⟨h2, h⟩ := num_cancel (by unfold NumChar; decide) (num_int _) (num_int _) (List.append_cancel_left h)
  obtain ⟨h3, h⟩ := fnText_cancel (List.append_cancel_left h)
  obtain ⟨h4, h⟩ := num_cancel (by unfold NumChar; decide) (num_nat _) (num_nat _) (List.append_cancel_left h)
  obtain ⟨h5, h⟩ := num_cancel (by unfold NumChar; decide) (num_nat _) (num_nat _) (List.append_cancel_left h)
  exact ⟨⟨nat_inj h4, nat_inj h5, desc_ext (int_inj h1) (int_inj h2) h3⟩, List.append_cancel_left h⟩

theorem line_ne {d : Desc} {s t : List Char} : "\t}\n\t{\n".toList ++ s ≠ (nodeLine d).toList ++ t := by
  unfold nodeLine
  intro h
  simp at h

theorem pline_ne {p : Int × Int} {d : Desc} {t : List Char} : "\t}\n}\n".toList ≠ (pairLine p d).toList ++ t := by
  unfold pairLine
  intro h
  simp at h

theorem nodeLines_cancel {E s t : List Char} (hE : ∀ d s t, E ++ s ≠ (nodeLine d).toList ++ t) : ∀ {a b : List Desc},
    (nodeLines a).toList ++ (E ++ s) = (nodeLines b).toList ++ (E ++ t) → a = b ∧ s = t
  | [], [], h => ⟨rfl, List.append_cancel_left (List.append_cancel_left h)⟩
  | [], d :: b, h => by
    simp only [nodeLines, String.toList_append, List.append_assoc] at h
    exact absurd h (hE _ _ _)
  | d :: a, [], h => by
    simp only [nodeLines, String.toList_append, List.append_assoc] at h
    exact absurd h.symm (hE _ _ _)
  | d :: a, e :: b, h => by
    simp only [nodeLines, String.toList_append, List.append_assoc] at h
    obtain ⟨h0, h'⟩ := nodeLine_cancel h
    obtain ⟨h1, h2⟩ := nodeLines_cancel hE h'
    exact ⟨by rw [h0, h1], h2⟩

theorem pairLines_cancel {n m : Int} {E : List Char} (hE : ∀ p d t, E ≠ (pairLine p d).toList ++ t) (p : List (Int × Int)) : ∀ (q : List (Int × Int)) (a b : List Desc), a.length = p.length → b.length = q.length →
    (∀ x ∈ p, EndsOK n x) → (∀ x ∈ q, EndsOK m x) →
    (pairLines p a).toList ++ E = (pairLines q b).toList ++ E → p = q ∧ a = b := by
  induction p with
  | nil =>
    intro q a b ha hb _ _ h
    obtain rfl := List.length_eq_zero_iff.1 ha
    cases q with
    | nil => exact ⟨rfl, (List.length_eq_zero_iff.1 hb).symm⟩
    | cons q qs =>
      cases b with
      | nil => simp at hb
      | cons e b =>
        simp only [pairLines, String.toList_append, List.append_assoc] at h
        exact absurd h (hE _ _ _)
  | cons p ps ih =>
    intro q a b ha hb h3 h4 h
    cases a with
    | nil => simp at ha
    | cons d a =>
      cases q with
      | nil =>
        obtain rfl := List.length_eq_zero_iff.1 hb
        simp only [pairLines, String.toList_append, List.append_assoc] at h
        exact absurd h.symm (hE _ _ _)
      | cons q qs =>
        cases b with
        | nil => simp at hb
        | cons e b =>
          simp only [pairLines, String.toList_append, List.append_assoc] at h
          obtain ⟨⟨g1, g2, g3⟩, h'⟩ := pairLine_cancel h
          obtain ⟨f1, f2⟩ := ih qs a b (by simpa using ha) (by simpa using hb) (fun x hx => h3 x (List.mem_cons_of_mem _ hx))
            (fun x hx => h4 x (List.mem_cons_of_mem _ hx)) h'
          have a1 := h3 p List.mem_cons_self
          have a2 := h4 q List.mem_cons_self
          unfold EndsOK at a1 a2
          have : p = q := Prod.ext (by omega) (by omega)
          rw [this, f1, f2, g3]
          exact ⟨rfl, rfl⟩

/-- the text determines what it describes -/
theorem infoText_inj {n m : Int} {nd md : List Desc} {p q : List (Int × Int)} {pd qd : List Desc} (h1 : pd.length = p.length) (h2 : qd.length = q.length)
    (h3 : ∀ x ∈ p, EndsOK n x) (h4 : ∀ x ∈ q, EndsOK m x) (h : infoText n nd p pd = infoText m md q qd) : n = m ∧ nd = md ∧ p = q ∧ pd = qd := by
  have h := congrArg String.toList h
  unfold infoText at h
  simp only [String.toList_append, List.append_assoc] at h
  have e1 : "\n\t{\n\t\t{}\n".toList = '\n' :: "\t{\n\t\t{}\n".toList := rfl
  have h := List.append_cancel_left h
  rw [e1] at h
  simp only [List.cons_append] at h
  obtain ⟨g1, h⟩ := num_cancel (by unfold NumChar; decide) (num_int _) (num_int _) h
  obtain ⟨g2, h⟩ := nodeLines_cancel (fun _ _ _ => line_ne) (List.append_cancel_left h)
  obtain ⟨g3, g4⟩ := pairLines_cancel (fun _ _ _ => pline_ne) p q pd qd h1 h2 h3 h4 h
  exact ⟨int_inj g1, g2, g3, g4⟩

theorem infoText_ne (n : Int) (nd : List Desc) (ends : List (Int × Int)) (pd : List Desc) : infoText n nd ends pd ≠ "" := by
  intro h
  have h := congrArg String.toList h
  unfold infoText at h
  simp at h

/-! ### `Graph::prettyPrint` -/

section
variable {D : Type}

theorem nodeText_cancel {E s t : List Char} (hE : ∀ s t, E ++ s ≠ '{' :: t) : ∀ {a b : List (MuLimit D)},
    (Graph.nodeText a).toList ++ (E ++ s) = (Graph.nodeText b).toList ++ (E ++ t) → a.map (fun e => (e.l, e.u)) = b.map (fun e => (e.l, e.u)) ∧ s = t
  | [], [], h => ⟨rfl, List.append_cancel_left (List.append_cancel_left h)⟩
  | [], d :: b, h => by
    have e0 : "{".toList = ['{'] := rfl
    simp only [Graph.nodeText, String.toList_append, List.append_assoc, e0, List.cons_append, List.nil_append] at h
    exact absurd h (hE _ _)
  | d :: a, [], h => by
    have e0 : "{".toList = ['{'] := rfl
    simp only [Graph.nodeText, String.toList_append, List.append_assoc, e0, List.cons_append, List.nil_append] at h
    exact absurd h.symm (hE _ _)
  | d :: a, e :: b, h => by
    simp only [Graph.nodeText, String.toList_append, List.append_assoc] at h
    have e1 : ",".toList = [','] := rfl
    have h := List.append_cancel_left (List.append_cancel_left h)
    rw [e1] at h
    simp only [List.cons_append, List.nil_append] at h
    obtain ⟨h1, h⟩ := num_cancel (by unfold NumChar; decide) (num_int _) (num_int _) h
    obtain ⟨h2, h⟩ := num_cancel (by unfold NumChar; decide) (num_int _) (num_int _) (List.append_cancel_left h)
    obtain ⟨h3, h4⟩ := nodeText_cancel hE (List.append_cancel_left (List.append_cancel_left h))
    exact ⟨by rw [List.map_cons, List.map_cons, h3, int_inj h1, int_inj h2], h4⟩

/-- the text of one edge -/
def edgeItem (e : OmegaLimit D) : String :=
  "i:" ++ toString e.i ++ "," ++ "j:" ++ toString e.j ++ "," ++ "l:" ++ toString e.l ++ "," ++ "u:" ++ toString e.u ++ "," ++ "B:#" ++ "},"

theorem edgeText_cons (e : OmegaLimit D) (es : List (OmegaLimit D)) :
    (Graph.edgeText (e :: es)).toList = '{' :: ((edgeItem e).toList ++ (Graph.edgeText es).toList) := by
  have h : Graph.edgeText (e :: es) = "{" ++ (edgeItem e ++ Graph.edgeText es) := by
    unfold edgeItem
    conv_lhs => unfold Graph.edgeText
    simp only [String.append_assoc]
  have e0 : "{".toList = ['{'] := rfl
  rw [h, String.toList_append, String.toList_append, e0, List.singleton_append]

theorem edgeItem_cancel {d e : OmegaLimit D} {s t : List Char} (h : (edgeItem d).toList ++ s = (edgeItem e).toList ++ t) :
    (d.i, d.j, d.l, d.u) = (e.i, e.j, e.l, e.u) ∧ s = t := by
  unfold edgeItem at h
  have e1 : ",".toList = [','] := rfl
  have hc : ¬ NumChar ',' := by unfold NumChar; decide
  simp only [String.toList_append, List.append_assoc] at h
  have h := List.append_cancel_left h
  rw [e1] at h
  simp only [List.cons_append, List.nil_append] at h
  obtain ⟨h1, h⟩ := num_cancel hc (num_nat _) (num_nat _) h
  obtain ⟨h2, h⟩ := num_cancel hc (num_nat _) (num_nat _) (List.append_cancel_left h)
  obtain ⟨h3, h⟩ := num_cancel hc (num_int _) (num_int _) (List.append_cancel_left h)
  obtain ⟨h4, h⟩ := num_cancel hc (num_int _) (num_int _) (List.append_cancel_left h)
  exact ⟨by rw [nat_inj h1, nat_inj h2, int_inj h3, int_inj h4], List.append_cancel_left (List.append_cancel_left h)⟩

theorem edgeText_cancel {E s t : List Char} (hE : ∀ s t, E ++ s ≠ '{' :: t) (a : List (OmegaLimit D)) : ∀ b : List (OmegaLimit D),
    (Graph.edgeText a).toList ++ (E ++ s) = (Graph.edgeText b).toList ++ (E ++ t) →
    a.map (fun e => (e.i, e.j, e.l, e.u)) = b.map (fun e => (e.i, e.j, e.l, e.u)) ∧ s = t := by
  have h0 : (Graph.edgeText ([] : List (OmegaLimit D))).toList = [] := rfl
  induction a with
  | nil =>
    intro b h
    cases b with
    | nil => exact ⟨rfl, List.append_cancel_left (List.append_cancel_left h)⟩
    | cons d b =>
      rw [edgeText_cons, h0] at h
      exact absurd h (hE _ _)
  | cons d a ih =>
    intro b h
    cases b with
    | nil =>
      rw [edgeText_cons, h0] at h
      exact absurd h.symm (hE _ _)
    | cons e b =>
      rw [edgeText_cons, edgeText_cons, List.cons_append, List.cons_append, List.append_assoc, List.append_assoc] at h
      obtain ⟨h1, h2⟩ := edgeItem_cancel (List.cons.inj h).2
      obtain ⟨h5, h6⟩ := ih b h2
      exact ⟨by rw [List.map_cons, List.map_cons, h5, h1], h6⟩

theorem prettyPrint_inj {g g' : Graph D} (h0 : g.info = "") (h0' : g'.info = "") (h : g.prettyPrint "" = g'.prettyPrint "") :
    g.n = g'.n ∧ g.m = g'.m ∧ g.node.map (fun e => (e.l, e.u)) = g'.node.map (fun e => (e.l, e.u)) ∧
    g.edge.map (fun e => (e.i, e.j, e.l, e.u)) = g'.edge.map (fun e => (e.i, e.j, e.l, e.u)) := by
  unfold Graph.prettyPrint at h
  rw [if_neg (by simp [h0]), if_neg (by simp [h0'])] at h
  have h := congrArg String.toList h
  simp only [String.toList_append, List.append_assoc] at h
  have e1 : "; ".toList = ';' :: " ".toList := rfl
  have hE : ∀ s t, "}; ".toList ++ s ≠ '{' :: t := by intro s t h; simp at h
  have h := List.append_cancel_left (List.append_cancel_left (List.append_cancel_left h))
  rw [e1] at h
  simp only [List.cons_append] at h
  obtain ⟨h1, h⟩ := num_cancel (by unfold NumChar; decide) (num_int _) (num_int _) h
  obtain ⟨h2, h⟩ := nodeText_cancel hE (List.append_cancel_left (List.append_cancel_left h))
  obtain ⟨h3, h⟩ := num_cancel (by unfold NumChar; decide) (num_int _) (num_int _) (List.append_cancel_left h)
  obtain ⟨h4, _⟩ := edgeText_cancel hE _ _ (List.append_cancel_left (List.append_cancel_left h))
  exact ⟨int_inj h1, int_inj h3, h2, h4⟩

end

end Gen
end AHO
