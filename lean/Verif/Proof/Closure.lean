import Verif.Model.Closure
import Verif.Proof.LCTSInv
/-!
# The function objects give the functions of the model
-/

namespace AHO
open LCT (bind_ok)
variable {D : Type}

namespace Closure

/-- the calls of every evaluation -/
def size : Closure D → Calls
  | .user _ => ⟨1, 1, 1⟩
  | .pre _ c => ⟨c.size.objects + 1, c.size.callbacks, c.size.depth + 1⟩
  | .rev c => ⟨c.size.objects + 1, c.size.callbacks, c.size.depth + 1⟩
  | .sum c d => ⟨c.size.objects + d.size.objects + 1, c.size.callbacks + d.size.callbacks, max c.size.depth d.size.depth + 1⟩

theorem size_objects (c : Closure D) : c.size.objects = c.objects := by
  induction c <;> simp_all [size, objects]

theorem call_size [Add D] {imax : Int} {c : Closure D} {x : Int} {r : Calls × D} (h : c.call imax x = .ok r) : r.1 = c.size := by
  induction c generalizing x r with
  | user f =>
    obtain ⟨v, _, h⟩ := bind_ok h
    cases h; rfl
  | pre m c ih =>
    obtain ⟨v, hv, h⟩ := bind_ok h
    cases h
    have := ih hv
    simp [size, this]
  | rev c ih =>
    obtain ⟨y, _, h⟩ := bind_ok h
    obtain ⟨v, hv, h⟩ := bind_ok h
    cases h
    have := ih hv
    simp [size, this]
  | sum c d ihc ihd =>
    obtain ⟨v, hv, h⟩ := bind_ok h
    obtain ⟨w, hw, h⟩ := bind_ok h
    cases h
    have h1 := ihc hv
    have h2 := ihd hw
    simp [size, h1, h2]

theorem fn_user [Add D] (imax : Int) (f : Fn D) : (Closure.user f).fn imax = f := by
  funext x
  unfold fn call
  cases f x <;> rfl

theorem fn_pre [Add D] (imax m : Int) (c : Closure D) : (Closure.pre m c).fn imax = fun x => c.fn imax (max m x) := by
  funext x
  unfold fn
  rw [call]
  cases c.call imax (max m x) <;> rfl

theorem fn_rev [Add D] (imax : Int) (c : Closure D) : (Closure.rev c).fn imax = fun x => ck imax (-x) >>= c.fn imax := by
  funext x
  unfold fn
  rw [call]
  cases ck imax (-x) with
  | error e => rfl
  | ok y =>
    show Except.map Prod.snd (c.call imax y >>= _) = Except.map Prod.snd (c.call imax y)
    cases c.call imax y <;> rfl

theorem fn_sum [Add D] (imax : Int) (c d : Closure D) :
    (Closure.sum c d).fn imax = fun x => c.fn imax x >>= fun a => d.fn imax x >>= fun b => .ok (a + b) := by
  funext x
  unfold fn
  rw [call]
  cases c.call imax x with
  | error e => rfl
  | ok y =>
    cases d.call imax x <;> rfl

end Closure

namespace ClosureLimit

theorem limit_ofLimit [Add D] (imax : Int) (e : OmegaLimit D) : (ofLimit e).limit imax = e := by
  unfold limit ofLimit
  rw [Closure.fn_user]

theorem preProcessing_er [Add D] [LT D] [DecidableLT D] (imax : Int) (fuel : Nat) (e : ClosureLimit D) :
    (e.preProcessing imax fuel).map (fun r => r.2.limit imax) = (e.limit imax).preProcessing imax fuel := by
  unfold preProcessing OmegaLimit.preProcessing
  show Except.map _ (partitionPoint imax (descends imax (e.fn.fn imax)) fuel e.l e.u >>= _) =
    (partitionPoint imax (descends imax (e.fn.fn imax)) fuel e.l e.u >>= _)
  cases partitionPoint imax (descends imax (e.fn.fn imax)) fuel e.l e.u with
  | error _ => rfl
  | ok m =>
    show Except.ok _ = Except.ok _
    simp [limit, Closure.fn_pre]

theorem reverse_er [Add D] (imax : Int) (e : ClosureLimit D) :
    (e.reverse imax).map (fun r => r.2.limit imax) = (e.limit imax).reverse imax := by
  unfold reverse OmegaLimit.reverse
  show Except.map _ (ck imax (-e.u) >>= _) = (ck imax (-e.u) >>= _)
  cases ck imax (-e.u) with
  | error _ => rfl
  | ok y =>
    show Except.map _ (ck imax (-e.l) >>= _) = (ck imax (-e.l) >>= _)
    cases ck imax (-e.l) with
    | error _ => rfl
    | ok z =>
      show Except.ok _ = Except.ok _
      simp [limit, Closure.fn_rev]

theorem merge_er [Add D] (imax : Int) (e o : ClosureLimit D) :
    (e.merge o).map (fun r => (r.2.1.limit imax, r.2.2)) = (e.limit imax).merge (o.limit imax) := by
  unfold merge OmegaLimit.merge
  show Except.map _ (if e.i = o.i ∧ e.j = o.j then _ else _) = if e.i = o.i ∧ e.j = o.j then _ else _
  split
  · show Except.ok _ = Except.ok _
    simp [limit, Closure.fn_sum]
  · rfl

end ClosureLimit

namespace ProblemSolver

theorem map_ok {α β : Type} {x : Res α} {f : α → β} {y : Res β} (h : x.map f = y) :
    (∃ e, x = .error e ∧ y = .error e) ∨ ∃ a, x = .ok a ∧ y = .ok (f a) := by
  cases x with
  | error e => exact .inl ⟨e, rfl, h.symm⟩
  | ok a => exact .inr ⟨a, rfl, h.symm⟩

theorem processClosures_er [Add D] [LT D] [DecidableLT D] (imax : Int) (fuel n : Nat) (Mus : List (MuLimit D)) (es : List (ClosureLimit D)) :
    (processClosures imax fuel n Mus es).map (fun r => r.2.map (·.map (·.limit imax))) =
      processOmegas imax fuel n Mus (es.map (·.limit imax)) := by
  induction es with
  | nil => rfl
  | cons it rest ih =>
    rw [List.map_cons]
    unfold processClosures processOmegas
    show Except.map _ (if ¬ (1 ≤ it.i ∧ it.i ≤ n) then _ else _) = if ¬ (1 ≤ it.i ∧ it.i ≤ n) then _ else _
    split
    · rfl
    show Except.map _ (if ¬ (1 ≤ it.j ∧ it.j ≤ n) then _ else _) = if ¬ (1 ≤ it.j ∧ it.j ≤ n) then _ else _
    split
    · rfl
    show Except.map _ (if ¬ (it.i ≠ it.j) then _ else _) = if ¬ (it.i ≠ it.j) then _ else _
    split
    · rfl
    show Except.map _ (if ¬ (it.l ≤ it.u) then _ else _) = if ¬ (it.l ≤ it.u) then _ else _
    split
    · rfl
    rcases map_ok (ClosureLimit.preProcessing_er imax fuel it) with ⟨e, h1, h2⟩ | ⟨⟨k, it'⟩, h1, h2⟩
    · rw [h1, h2]; rfl
    rw [h1, h2]
    show Except.map _ (listRd Mus it'.i >>= _) = (listRd Mus it'.i >>= _)
    cases listRd Mus it'.i with
    | error _ => rfl
    | ok mi =>
    show Except.map _ (listRd Mus it'.j >>= _) = (listRd Mus it'.j >>= _)
    cases listRd Mus it'.j with
    | error _ => rfl
    | ok mj =>
    show Except.map _ (ck imax (mi.l - mj.u) >>= _) = (ck imax (mi.l - mj.u) >>= _)
    cases ck imax (mi.l - mj.u) with
    | error _ => rfl
    | ok l' =>
    show Except.map _ (if ¬ (l' ≤ it'.u) then _ else _) = if ¬ (l' ≤ it'.u) then _ else _
    split
    · rfl
    rcases map_ok ih with ⟨e, h3, h4⟩ | ⟨⟨k', r⟩, h3, h4⟩
    · rw [h3, h4]; rfl
    rw [h3, h4]
    cases r <;> rfl

/-- the map of the model -/
def mapLimits [Add D] (imax : Int) (mp : ClosureMap D) : LimitMap D := mp.map fun kv => (kv.1, kv.2.limit imax)

theorem closureFind_er [Add D] (imax : Int) (mp : ClosureMap D) (k : Nat × Nat) :
    mapFind (mapLimits imax mp) k = (closureFind mp k).map (·.limit imax) := by
  induction mp with
  | nil => rfl
  | cons a mp ih =>
    obtain ⟨k', v⟩ := a
    show mapFind ((k', v.limit imax) :: mapLimits imax mp) k = _
    unfold mapFind closureFind
    split
    · rfl
    · exact ih

theorem closureSet_er [Add D] (imax : Int) (mp : ClosureMap D) (k : Nat × Nat) (v : ClosureLimit D) :
    mapSet (mapLimits imax mp) k (v.limit imax) = mapLimits imax (closureSet mp k v) := by
  induction mp with
  | nil => rfl
  | cons a mp ih =>
    obtain ⟨k', v'⟩ := a
    show mapSet ((k', v'.limit imax) :: mapLimits imax mp) k _ = _
    unfold mapSet closureSet
    split
    · rfl
    · split
      · rfl
      · rw [ih]; rfl

theorem normClosure_er [Add D] (imax : Int) (it : ClosureLimit D) :
    (if it.i < it.j then it.reverse imax else .ok (0, it)).map (fun r => r.2.limit imax) =
      if (it.limit imax).i < (it.limit imax).j then (it.limit imax).reverse imax else .ok (it.limit imax) := by
  show _ = if it.i < it.j then _ else _
  split
  · exact ClosureLimit.reverse_er imax it
  · rfl

theorem mergeClosures_cons (imax : Int) (it : ClosureLimit D) (rest : List (ClosureLimit D)) (mp : ClosureMap D) :
    mergeClosures imax (it :: rest) mp = (if it.i < it.j then it.reverse imax else .ok (0, it)) >>= fun p =>
      match closureFind mp (p.2.i, p.2.j) with
      | some v => v.merge p.2 >>= fun q =>
        if q.2.2 then .ok (it.fn.objects + p.1 + q.1, none)
        else mergeClosures imax rest (closureSet mp (p.2.i, p.2.j) q.2.1) >>= fun s => .ok (it.fn.objects + p.1 + q.1 + s.1, s.2)
      | none =>
        mergeClosures imax rest (closureSet mp (p.2.i, p.2.j) p.2) >>= fun s => .ok (it.fn.objects + p.1 + p.2.fn.objects + s.1, s.2) := by
  rw [mergeClosures]
  by_cases h : it.i < it.j
  · rw [if_pos h, if_pos h]; rfl
  · rw [if_neg h, if_neg h]; rfl

theorem mergeLoop_unroll [Add D] (imax : Int) (it : OmegaLimit D) (rest : List (OmegaLimit D)) (mp : LimitMap D) :
    mergeLoop imax (it :: rest) mp = (if it.i < it.j then it.reverse imax else .ok it) >>= fun it =>
      match mapFind mp (it.i, it.j) with
      | some v => v.merge it >>= fun q =>
        if q.2 then .ok none
        else mergeLoop imax rest (mapSet mp (it.i, it.j) q.1)
      | none => mergeLoop imax rest (mapSet mp (it.i, it.j) it) := by
  rw [mergeLoop]
  by_cases h : it.i < it.j
  · rw [if_pos h, if_pos h]; rfl
  · rw [if_neg h, if_neg h]; rfl

theorem mergeClosures_er [Add D] (imax : Int) (es : List (ClosureLimit D)) (mp : ClosureMap D) :
    (mergeClosures imax es mp).map (fun r => r.2.map (mapLimits imax)) = mergeLoop imax (es.map (·.limit imax)) (mapLimits imax mp) := by
  induction es generalizing mp with
  | nil => rfl
  | cons it rest ih =>
    rw [List.map_cons]
    rw [mergeClosures_cons, mergeLoop_unroll]
    rcases map_ok (normClosure_er imax it) with ⟨e, h1, h2⟩ | ⟨⟨k, it'⟩, h1, h2⟩
    · rw [h1, h2]; rfl
    rw [h1, h2]
    have hf := closureFind_er imax mp (it'.i, it'.j)
    show Except.map _ (match closureFind mp (it'.i, it'.j) with | some v => _ | none => _) =
      match mapFind (mapLimits imax mp) (it'.i, it'.j) with | some v => _ | none => _
    rw [hf]
    cases closureFind mp (it'.i, it'.j) with
    | none =>
      have := ih (closureSet mp (it'.i, it'.j) it')
      rw [← closureSet_er] at this
      rcases map_ok this with ⟨e, h3, h4⟩ | ⟨⟨k', r⟩, h3, h4⟩
      · show Except.map _ (mergeClosures imax rest _ >>= _) = mergeLoop imax _ _
        rw [h3]; exact h4.symm
      · show Except.map _ (mergeClosures imax rest _ >>= _) = mergeLoop imax _ _
        rw [h3]; exact h4.symm
    | some v =>
      rcases map_ok (ClosureLimit.merge_er imax v it') with ⟨e, h3, h4⟩ | ⟨⟨k', v', b⟩, h3, h4⟩
      · show Except.map _ (v.merge it' >>= _) = ((v.limit imax).merge (it'.limit imax) >>= _)
        rw [h3, h4]; rfl
      show Except.map _ (v.merge it' >>= _) = ((v.limit imax).merge (it'.limit imax) >>= _)
      rw [h3, h4]
      cases b with
      | true => rfl
      | false =>
        have := ih (closureSet mp (it'.i, it'.j) v')
        rw [← closureSet_er] at this
        rcases map_ok this with ⟨e, h5, h6⟩ | ⟨⟨k', r⟩, h5, h6⟩
        · show Except.map _ (mergeClosures imax rest _ >>= _) = mergeLoop imax _ _
          rw [h5]; exact h6.symm
        · show Except.map _ (mergeClosures imax rest _ >>= _) = mergeLoop imax _ _
          rw [h5]; exact h6.symm

theorem musClosures_er [Add D] (imax : Int) (Mus : List (MuLimit D)) (i cnt : Nat) :
    (musClosures Mus i cnt).map (·.map (·.limit imax)) = musEdges Mus i cnt := by
  induction cnt generalizing i with
  | zero => rfl
  | succ cnt ih =>
    unfold musClosures musEdges
    cases listRd Mus i with
    | error _ => rfl
    | ok m =>
    rcases map_ok (ih (i + 1)) with ⟨e, h3, h4⟩ | ⟨r, h3, h4⟩
    · show Except.map _ (musClosures Mus (i + 1) cnt >>= _) = (musEdges Mus (i + 1) cnt >>= _)
      rw [h3, h4]; rfl
    · show Except.map _ (musClosures Mus (i + 1) cnt >>= _) = (musEdges Mus (i + 1) cnt >>= _)
      rw [h3, h4]
      show Except.ok (_ :: _) = Except.ok _
      exact congrArg (fun e => Except.ok (e :: _)) (ClosureLimit.limit_ofLimit imax _)

/-- the limits of the function objects are those which the model's `merge_limits` returns -/
theorem closureLimits_er [Add D] [LT D] [DecidableLT D] (imax : Int) (fuel n : Nat) (Mus : List (MuLimit D)) (Omegas : List (OmegaLimit D)) :
    (closureLimits imax fuel n Mus Omegas).map (fun r => r.2.map (·.map (·.limit imax))) = (do
      let r ← processOmegas imax fuel n Mus Omegas
      match r with
      | none => .ok none
      | some es => mergeLimits imax ⟨n, Mus, es⟩) := by
  have hp := processClosures_er imax fuel n Mus (Omegas.map .ofLimit)
  have : (Omegas.map ClosureLimit.ofLimit).map (·.limit imax) = Omegas := by
    rw [List.map_map]
    conv_rhs => rw [← List.map_id Omegas]
    exact List.map_congr_left fun e _ => ClosureLimit.limit_ofLimit imax e
  rw [this] at hp
  unfold closureLimits
  rcases map_ok hp with ⟨e, h1, h2⟩ | ⟨⟨k, r⟩, h1, h2⟩
  · rw [h1, h2]; rfl
  rw [h1, h2]
  cases r with
  | none => rfl
  | some es =>
    have hm := mergeClosures_er imax es []
    show Except.map _ (mergeClosures imax es [] >>= _) = mergeLimits imax _
    unfold mergeLimits
    show _ = (mergeLoop imax (es.map _) (mapLimits imax []) >>= _)
    rcases map_ok hm with ⟨e, h3, h4⟩ | ⟨⟨k', r⟩, h3, h4⟩
    · rw [h3, h4]; rfl
    rw [h3, h4]
    cases r with
    | none => rfl
    | some mp =>
      have hu := musClosures_er imax Mus 1 n
      show Except.map _ (musClosures Mus 1 n >>= _) = (musEdges Mus 1 n >>= _)
      rcases map_ok hu with ⟨e, h5, h6⟩ | ⟨ms, h5, h6⟩
      · rw [h5, h6]; rfl
      rw [h5, h6]
      show Except.ok _ = Except.ok _
      simp [mapLimits]

end ProblemSolver
end AHO
