import Verif.Model.Queue
import Verif.Proof.Basic
import Mathlib.Data.List.Nodup
/-!
# `UniqueQueue`
-/

namespace AHO.UQ
open AHO

/-- The flags say exactly which elements are in the queue, which has no duplicates. -/
structure OK (q : UQ) : Prop where
  nodup : q.queue.Nodup
  lt : ∀ v ∈ q.queue, v < q.isIn.size
  flag : ∀ v, v < q.isIn.size → (q.isIn.get v = true ↔ v ∈ q.queue)

theorem ok_mk (n : Nat) : OK (mk' n) := by
  constructor <;> simp [mk', Vec.replicate]

theorem ok_clear (q : UQ) : OK q.clear := by
  constructor <;> simp [clear, Vec.replicate]

theorem push_spec {q : UQ} (h : OK q) {x : Nat} (hx : x < q.isIn.size) :
    ∃ q', push q x = .ok q' ∧ OK q' ∧ q'.isIn.size = q.isIn.size ∧
      q'.queue = if x ∈ q.queue then q.queue else q.queue ++ [x] := by
  unfold push
  rw [Vec.rd_ok hx, ok_bind]
  by_cases hm : x ∈ q.queue
  · have hb := (h.flag x hx).2 hm
    exact ⟨q, by simp [hb], h, rfl, by simp [hm]⟩
  · have hb : q.isIn.get x = false := by
      cases hb : q.isIn.get x with
      | false => rfl
      | true => exact absurd ((h.flag x hx).1 hb) hm
    rw [hb, Vec.wr_ok _ hx]
    refine ⟨⟨q.queue ++ [x], q.isIn.set x true⟩, by simp, ⟨?_, ?_, ?_⟩, rfl, by simp [hm]⟩
    · simp only [List.nodup_append]
      refine ⟨h.nodup, by simp, ?_⟩
      rintro a ha b hb rfl
      simp at hb; subst hb; exact hm ha
    · intro v hv
      simp only [List.mem_append, List.mem_singleton] at hv
      rcases hv with hv | rfl
      · exact h.lt v hv
      · exact hx
    · intro v hv
      by_cases hvx : v = x
      · subst hvx; simp
      · simp only [List.mem_append, List.mem_singleton, hvx, or_false]
        rw [Vec.set_get_ne _ _ hvx]
        exact h.flag v hv

theorem front_spec {q : UQ} {x xs} (h : q.queue = x :: xs) : front q = .ok x := by
  simp [front, h]

theorem pop_spec {q : UQ} (h : OK q) {x xs} (hq : q.queue = x :: xs) :
    ∃ q', pop q = .ok q' ∧ OK q' ∧ q'.isIn.size = q.isIn.size ∧ q'.queue = xs := by
  have hx : x < q.isIn.size := h.lt x (by simp [hq])
  have hn := h.nodup
  rw [hq, List.nodup_cons] at hn
  refine ⟨⟨xs, q.isIn.set x false⟩, by simp [pop, hq, Vec.wr_ok _ hx], ⟨hn.2, ?_, ?_⟩, rfl, rfl⟩
  · intro v hv; exact h.lt v (by simp [hq]; exact .inr hv)
  · intro v hv
    by_cases hvx : v = x
    · subst hvx; simpa using hn.1
    · show (q.isIn.set x false).get v = true ↔ v ∈ xs
      rw [Vec.set_get_ne _ _ hvx, h.flag v hv, hq]
      simp [hvx]

end AHO.UQ
