/-
Vocabulary for the meshes with overleaves.
-/
import Verif.Spec.Mesh

namespace Samurai

/-- All the numbers of the list have the same parity (in a list of at most one number, always). -/
def SameParity (r : List Int) : Prop := ∃ b : Int, ∀ z ∈ r, z % 2 = b

end Samurai
