/-
Vocabulary for the time loops on AMR meshes.
-/
import Verif.Spec.AMRAdapt
import Verif.Model.AMRLoop

namespace Samurai

/-- A turn of a time loop: the field is changed by a function that knows the mesh, then the ghosts are updated with the boundary conditions and the mesh
is adapted once, with the tags of a criterion. The programs change the field in the first of several turns only. -/
structure AMRCall (K : Type) where
  change : AMRMeshes → CellField K → CellField K
  bcs : List (BcCond K)
  tags : AMRMeshes → CellField K → TagField

/-- The mesh and the field after the turns of a time loop. -/
def runAmrTurns {K : Type} [Field K] [LinearOrder K] [IsStrictOrderedRing K] (n : Nat) (cfg : MeshConfig) (gw minL maxL : Nat) (S : List (Nat → Int))
    (dom : LCA) (h0 : K) : List (AMRCall K) → AMRMeshes → CA → CellField K → Option (AMRMeshes × CA × CellField K)
  | [], m, x, f => some (m, x, f)
  | c :: cs, m, x, f =>
    match amrTurn n cfg gw minL maxL S dom h0 c.bcs c.tags m x (c.change m f) with
    | none => none
    | some (_, m', x', f') => runAmrTurns n cfg gw minL maxL S dom h0 cs m' x' f'

end Samurai
