/-
Model of the adaptation loops of the programs on AMR meshes, with the update of the ghosts: each turn calls `update_ghost`, the criterion of the program,
`graduation` and `update_field` (demos/FiniteVolume/AMR_Burgers_Hat.cpp:235-246; level_set.cpp:317-328 calls the criterion before `update_ghost`). One
field, sequential, not periodic, exact arithmetic. `n` is `dim - 1`.
-/
import Verif.Model.AMRGhost
import Verif.Model.AMRAdapt
import Verif.Model.Details

namespace Samurai

section
variable {K : Type} [Field K] [LinearOrder K] [IsStrictOrderedRing K]

/-- `update_ghost(field)` (update.hpp:26-50) for a field of the mesh `m`. -/
def amrGhostArray (n : Nat) (cfg : MeshConfig) (minL maxL : Nat) (dom : LCA) (h0 : K) (bcs : List (BcCond K)) (m : AMRMeshes) (f : CellField K) :
    Option (Int → K) :=
  updateGhostAmr n ⟨⟨m.cells, m.all, dom, minL, maxL, fun _ => false, h0, cfg⟩, m.proj, m.pred⟩ bcs (fieldArray n m.all f)

/-- One turn (AMR_Burgers_Hat.cpp:238-245): `tags` is the criterion of the program, which may read the ghosts. -/
def amrTurn (n : Nat) (cfg : MeshConfig) (gw minL maxL : Nat) (S : List (Nat → Int)) (dom : LCA) (h0 : K) (bcs : List (BcCond K))
    (tags : AMRMeshes → CellField K → TagField) (m : AMRMeshes) (x : CA) (f : CellField K) : Option (Bool × AMRMeshes × CA × CellField K) :=
  match amrGhostArray n cfg minL maxL dom h0 bcs m f with
  | none => none
  | some u => amrAdapt n cfg gw minL maxL S dom (tags m (fieldAt n m.all u)) m x (fieldAt n m.all u)

end

end Samurai
