/- Meaning of an integer box; a point is a list of coordinates, outermost first. -/
import Verif.Model.Box
import Verif.Spec.LevelCellArray

namespace Samurai

/-- `p` (with `d + 1` coordinates) is in the half-open box: `lo k ≤ p_k < hi k` for `k = d, ..., 0`. -/
def InBox (b : Box) : Nat → List Int → Prop
  | 0, [x] => b.lo 0 ≤ x ∧ x < b.hi 0
  | d + 1, c :: p => (b.lo (d + 1) ≤ c ∧ c < b.hi (d + 1)) ∧ InBox b d p
  | _, _ => False

/-- Number of integer points of the box: the product of the side lengths of the directions `0..d`. -/
def boxVolume (b : Box) : Nat → Nat
  | 0 => (b.hi 0 - b.lo 0).toNat
  | d + 1 => (b.hi (d + 1) - b.lo (d + 1)).toNat * boxVolume b d

end Samurai
