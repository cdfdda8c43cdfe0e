/-
Vocabulary for the graduation of a mesh.
-/
import Verif.Spec.Update
import Verif.Model.Graduation
import Verif.Model.Adapt

namespace Samurai

/-- No leaf moved by a vector of the stencil (in units of its own size) falls inside a leaf that is more than one level coarser. -/
def CA.GradedFor (n : Nat) (stencil : List (Nat → Int)) (c : CA) : Prop :=
  ∀ l p l' p' s, c.Mem n l p → c.Mem n l' p' → s ∈ stencil → l ≤ l' → Anc (l' - l) p (shiftPoint s n p') → l' ≤ l + 1

/-- Two cells of the same level share a face: their coordinates are the same except one, which differs by one. -/
def FaceNeighbours : List Int → List Int → Prop
  | a :: p, b :: q => (a = b ∧ FaceNeighbours p q) ∨ ((a = b + 1 ∨ b = a + 1) ∧ p = q)
  | _, _ => False

/-- Two leaves that share (a part of) a face have levels that differ by at most one. (`q` is a cell of the level of the finer leaf `p'`, inside the
coarser leaf `p`, that shares a face with `p'`.) -/
def CA.FaceGraded (n : Nat) (c : CA) : Prop :=
  ∀ l p l' p' q, c.Mem n l p → c.Mem n l' p' → l ≤ l' → FaceNeighbours q p' → Anc (l' - l) p q → l' ≤ l + 1

/-- Every cell of the mesh lies in a cell of the mesh `c`, which is the same or coarser. -/
def CA.Refines (n : Nat) (d c : CA) : Prop := ∀ l p, d.Mem n l p → ∃ l' q, c.Mem n l' q ∧ l' ≤ l ∧ Anc (l - l') q p

/-- The numbers of the cells are all different. -/
def CA.NumbersDiffer (n : Nat) (c : CA) : Prop := ((c.numbered n).map fun e => e.2.2).Nodup

end Samurai
