import Verif.Model.Generator
/-!
# Model of `Graph::prettyPrint` (`test/Graph.cpp:8-34`)
-/

namespace AHO
namespace Gen
namespace Graph
variable {D : Type}

/-- the loop over `node_` (`test/Graph.cpp:16-21`) -/
def nodeText : List (MuLimit D) → String
  | [] => ""
  | e :: es => "{" ++ "l:" ++ toString e.l ++ "," ++ "u:" ++ toString e.u ++ "," ++ "F:#" ++ "}," ++ nodeText es

/-- the loop over `edge_` (`test/Graph.cpp:23-30`) -/
def edgeText : List (OmegaLimit D) → String
  | [] => ""
  | e :: es => "{" ++ "i:" ++ toString e.i ++ "," ++ "j:" ++ toString e.j ++ "," ++ "l:" ++ toString e.l ++ "," ++ "u:" ++ toString e.u ++ "," ++
      "B:#" ++ "}," ++ edgeText es

/-- `Graph::prettyPrint` (`test/Graph.cpp:8-34`): the value of `out` afterwards. -/
def prettyPrint (g : Graph D) (out : String) : String :=
  if ¬ g.info = "" then out ++ g.info
  else out ++ ("{" ++ "n: " ++ toString g.n ++ "; " ++ "{" ++ nodeText g.node ++ "}; " ++ "m: " ++ toString g.m ++ "; " ++
    "{" ++ edgeText g.edge ++ "}; " ++ "}")

end Graph
end Gen
end AHO
