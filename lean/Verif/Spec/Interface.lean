/-
Vocabulary for the loops on the interfaces: directions, interfaces between leaves, the arguments of the callbacks.
-/
import Verif.Spec.Adapt
import Verif.Model.Interface

namespace Samurai

/-- The Cartesian direction `d` (0 is x). -/
def unitDir (d : Nat) : Nat → Int := fun k => if k = d then 1 else 0

/-- A mesh of leaves that tile a domain, and a reference mesh that holds all the cells within `w` of a leaf of the same level. -/
structure FVMesh (n : Nat) (cells ref : CA) (dom : LCA) (minL maxL w : Nat) : Prop where
  leaves : GoodLeaves n cells dom minL maxL
  domain : GoodDomain n dom minL maxL (w + 3)
  refWF : ref.WF n
  ghosts : ∀ l p q, cells.Mem n l q → Near w p q → ref.Mem n l p

/-- A computational stencil for the direction `dir`: it holds the two cells of the interface, and all its cells are within `w` of both. -/
structure StencilOK (n w : Nat) (dir : Nat → Int) (S : List (Nat → Int)) : Prop where
  orig : ∃ s ∈ S, ∀ k ≤ n, s k = 0
  next : ∃ s ∈ S, ∀ k ≤ n, s k = dir k
  width : ∀ s ∈ S, ∀ k ≤ n, - (w : Int) ≤ s k ∧ s k ≤ w ∧ - (w : Int) ≤ s k - dir k ∧ s k - dir k ≤ w

/-- `a` and `b` (level and coordinates) have a common interface, `b` is after `a` in the direction `dir`, and `q` is the cell of the finer of
the two levels that lies inside `a` along this interface. -/
def FaceAt (n : Nat) (dir : Nat → Int) (a b : Nat × List Int) (q : List Int) : Prop :=
  Anc (max a.1 b.1 - a.1) a.2 q ∧ Anc (max a.1 b.1 - b.1) b.2 (shiftPoint dir n q)

/-- `a` and `b` are two leaves with a common interface, `b` is after `a` in the direction `dir`. -/
def Interface (n : Nat) (cells : CA) (dir : Nat → Int) (a b : Nat × List Int) : Prop :=
  cells.Mem n a.1 a.2 ∧ cells.Mem n b.1 b.2 ∧ ∃ q, FaceAt n dir a b q

/-- `m` is the cell `p` of level `l`, and its number is the number of this cell in the reference mesh. -/
def CellIs (n : Nat) (ref : CA) (l : Nat) (p : List Int) (m : MCell) : Prop :=
  m.level = l ∧ m.pt = p ∧ (l, p, m.index) ∈ ref.numbered n

/-- The leaf of a cell. -/
def MCell.id (m : MCell) : Nat × List Int := (m.level, m.pt)

/-- The two leaves of a call. -/
def FaceCall.ends (f : FaceCall) : (Nat × List Int) × (Nat × List Int) := (f.left.id, f.right.id)

/-- The arguments of a call are right: the two cells have their numbers, and the computational cells are, in the order of the stencil, the
cells of the finer of the two levels around the interface, with their numbers. -/
def FaceCall.Right (n : Nat) (ref : CA) (dir : Nat → Int) (S : List (Nat → Int)) (f : FaceCall) : Prop :=
  CellIs n ref f.left.level f.left.pt f.left ∧ CellIs n ref f.right.level f.right.pt f.right ∧
    ∃ q, FaceAt n dir f.left.id f.right.id q ∧
      List.Forall₂ (fun s m => CellIs n ref (max f.left.level f.right.level) (shiftPoint s n q) m) S f.comput

end Samurai
