/-
Vocabulary for the exchanges of ghost values between processes.
-/
import Verif.Model.MpiGhost
import Verif.Spec.CellArray
import Verif.Spec.Mesh
import Verif.Spec.Graduation
import Verif.Spec.Subset

namespace Samurai

/-- The meshes of the processes: each reference mesh is well formed and numbers its cells, and the coordinates are in the range of `int`. The meshes can
be any: nothing is asked on how the domain is shared between the processes. -/
structure MpiMeshes (n size : Nat) (M : Nat → MpiMesh) : Prop where
  refWF : ∀ p < size, (M p).ref.WF n
  refLeveled : ∀ p < size, (M p).ref.Leveled
  numbers : ∀ p < size, (M p).ref.NumbersDiffer n
  subWF : ∀ p < size, (M p).sub.WF n
  range : ∃ (T : Nat) (D : Int), 0 ≤ D ∧ D + 2 * 2 ^ T + 2 < INT_MAX ∧ (∀ p < size, (M p).sub.level ≤ T ∧ (M p).sub.BelowAt n T D) ∧
    ∀ p < size, ∀ l ≤ (M p).ref.maxSize, l ≤ T ∧ ((M p).ref.lca l).BelowAt n T D

/-- The cell `c` of level `l`, or a part of it, is in the subdomain of the mesh. -/
def MpiMesh.Owns (n : Nat) (M : MpiMesh) (l : Nat) (c : List Int) : Prop := AtLevel M.sub.level l (M.sub.Mem n) c

/-- `x` is the component `k` of the field in the cell `c` of level `l`. -/
def MpiLocal.Has {K : Type} (n : Nat) (s : MpiLocal K) (l : Nat) (c : List Int) (k : Nat) (x : K) : Prop :=
  ∃ i, (l, c, i) ∈ s.mesh.ref.numbered n ∧ s.u i k = x

end Samurai
