import Verif.Model.CostScaling
import Verif.Link
/-!
# How the arguments and the state of `CostScaling` stand for objects of the specification
-/

namespace AHO
variable {K : Type}

/-- The arc of a network that an `InputEdge` stands for. -/
def InputEdge.arc (e : InputEdge K) : Spec.FlowArc K := ⟨e.u, e.v, e.cost, e.capacity⟩

/-- The object `s` holds the flow `f` and the potentials `p`: edge `2 * k` has the rest of the capacity of arc `k`, edge `2 * k + 1` the
flow, and all else is as `Init` has left it in `s0` (except for `len`, which counts the edges during `Init`, and `epsilon`). -/
structure CostScaling.Holds [Sub K] (arcs : List (InputEdge K)) (s0 : CostScaling K) (f p : Nat → K) (s : CostScaling K) : Prop where
  N : s.N = s0.N
  head_size : s.head.size = s0.head.size
  head : ∀ v, v < s0.N → s.head.get v = s0.head.get v
  total : s.total_cost = s0.total_cost
  p_size : s.p.size = s0.p.size
  p : ∀ v, v < s0.N → s.p.get v = p v
  size : s.edge.size = s0.edge.size
  next : ∀ e, e < s0.edge.size → (s.edge.get e).next = (s0.edge.get e).next
  v : ∀ e, e < s0.edge.size → (s.edge.get e).v = (s0.edge.get e).v
  cost : ∀ e, e < s0.edge.size → (s.edge.get e).cost = (s0.edge.get e).cost
  rest : ∀ (k : Nat) (hk : k < arcs.length), (s.edge.get (2 * k)).capacity = arcs[k].capacity - f k
  flow : ∀ k, k < arcs.length → (s.edge.get (2 * k + 1)).capacity = f k

end AHO
