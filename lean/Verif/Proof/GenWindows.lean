import Verif.Proof.Generator
/-!
# The generator ends

States from which three numbers `a`, `b`, `a` are drawn, for the numbers of nodes in the tests.
-/

namespace AHO
namespace Gen

instance {node : Int} {w : Nat} {p : Int × Int} : Decidable (Window node w p) :=
  decidable_of_iff (w < 2 ^ 48 ∧ acc node (step w / 2 ^ 17) ∧ acc node (step (step w) / 2 ^ 17) ∧ acc node (step (step (step w)) / 2 ^ 17) ∧
    val node (step w / 2 ^ 17) = p.1 ∧ val node (step (step w) / 2 ^ 17) = p.2 ∧ val node (step (step (step w)) / 2 ^ 17) = p.1)
    ⟨fun ⟨a, b, c, d, e, f, g⟩ => ⟨a, b, c, d, e, f, g⟩, fun ⟨a, b, c, d, e, f, g⟩ => ⟨a, b, c, d, e, f, g⟩⟩

instance {p q : Int × Int} : Decidable (Differ p q) := inferInstanceAs (Decidable (_ ∧ _))

/-- for 5 nodes -/
def windows5 : List (Nat × (Int × Int)) :=
    [(1, (4, 3)), (6, (1, 2)), (20, (4, 2)), (32, (2, 0)), (44, (0, 3)), (53, (0, 1)), (67, (3, 1)), (79, (1, 4)), (95, (2, 3)),
    (120, (4, 0))]

theorem windows5_ok : (∀ x ∈ windows5, Window 5 x.1 x.2 ∧ x.2.1 ≠ x.2.2) ∧ windows5 ≠ [] ∧ (windows5.map Prod.snd).Pairwise Differ := by
  decide +kernel

/-- for 50 nodes -/
def windows50 : List (Nat × (Int × Int)) :=
    [(1, (24, 28)), (16, (41, 1)), (122, (32, 19)), (145, (45, 31)), (198, (41, 40)), (251, (36, 0)), (327, (45, 23)),
    (380, (41, 30)), (395, (7, 2)), (433, (36, 39)), (448, (3, 12)), (509, (45, 13)), (577, (7, 42)), (615, (36, 29)),
    (630, (3, 1)), (759, (7, 32)), (797, (36, 19)), (812, (3, 41)), (941, (7, 22)), (994, (3, 31)), (1123, (7, 11)),
    (1138, (24, 34)), (1244, (15, 2)), (1267, (28, 16)), (1305, (7, 1)), (1320, (24, 23)), (1426, (15, 41)), (1449, (28, 6)),
    (1487, (7, 41)), (1555, (19, 22)), (1593, (48, 9)), (1631, (28, 46)), (1737, (19, 12)), (1881, (40, 15)), (1919, (19, 1)),
    (1934, (36, 24)), (2063, (40, 4)), (2101, (19, 41)), (2116, (36, 13)), (2245, (40, 46)), (2283, (19, 31)), (2298, (36, 3)),
    (2427, (40, 36)), (2442, (7, 8)), (2533, (31, 2)), (2548, (48, 24)), (2571, (11, 39)), (2609, (40, 25)), (2677, (2, 5)),
    (2715, (31, 42)), (2730, (48, 14)), (2844, (35, 22)), (2859, (2, 45)), (3041, (2, 34)), (3185, (23, 39)), (3223, (2, 24)),
    (3238, (19, 46)), (3352, (6, 7)), (3367, (23, 29)), (3405, (2, 14)), (3534, (6, 46)), (3549, (23, 19)), (3587, (2, 3)),
    (3602, (19, 26)), (3655, (14, 35)), (3731, (23, 8)), (3784, (18, 15)), (3837, (14, 24)), (3913, (23, 48)), (3966, (18, 7)),
    (3981, (35, 27)), (4034, (31, 36)), (4148, (18, 47)), (4163, (35, 19)), (4201, (14, 4)), (4330, (18, 36)), (4345, (35, 9)),
    (4383, (14, 44)), (4527, (35, 48)), (4656, (39, 29)), (4671, (6, 1)), (4709, (35, 38)), (4724, (2, 11)), (4815, (26, 4)),
    (4838, (39, 19)), (4853, (6, 41)), (4891, (35, 28)), (4959, (47, 7)), (5020, (39, 9)), (5035, (6, 31)), (5073, (35, 18)),
    (5088, (1, 40)), (5126, (30, 25)), (5270, (1, 30)), (5323, (47, 37)), (5467, (18, 42)), (5505, (47, 26)), (5634, (1, 9)),
    (5649, (18, 31)), (5816, (1, 49))]

theorem windows50_ok : (∀ x ∈ windows50, Window 50 x.1 x.2 ∧ x.2.1 ≠ x.2.2) ∧ windows50 ≠ [] ∧ (windows50.map Prod.snd).Pairwise Differ := by
  decide +kernel

/-- for 4 nodes -/
def windows4 : List (Nat × (Int × Int)) :=
    [(5, (0, 2))]

theorem windows4_ok : (∀ x ∈ windows4, Window 4 x.1 x.2 ∧ x.2.1 ≠ x.2.2) ∧ windows4 ≠ [] ∧ (windows4.map Prod.snd).Pairwise Differ := by
  decide +kernel

/-- for 100 nodes -/
def windows100 : List (Nat × (Int × Int)) :=
    [(145, (95, 81))]

theorem windows100_ok : (∀ x ∈ windows100, Window 100 x.1 x.2 ∧ x.2.1 ≠ x.2.2) ∧ windows100 ≠ [] ∧ (windows100.map Prod.snd).Pairwise Differ := by
  decide +kernel

theorem windows_of {node m : Int} {multi : Bool} {L : List (Nat × (Int × Int))}
    (h : (∀ x ∈ L, Window node x.1 x.2 ∧ x.2.1 ≠ x.2.2) ∧ L ≠ [] ∧ (L.map Prod.snd).Pairwise Differ) (hm : multi = false → m ≤ L.length) :
    Windows node multi m := ⟨L, h.1, h.2.1, fun h' => ⟨h.2.2, hm h'⟩⟩

end Gen
end AHO
