/-
Vocabulary for the mesh adaptation: graded meshes, meshes that tile a domain.
-/
import Verif.Spec.Update
import Verif.Model.Adapt

namespace Samurai

/-- The mesh is graded (2:1 balanced): two leaves that touch each other, also by a corner, have levels that differ by at most one.
(`q` is a cell of the level of the finer leaf `p'`, at distance at most one of it and inside the coarser leaf `p`.) -/
def CA.Graded (n : Nat) (c : CA) : Prop :=
  ∀ l p l' p' q, c.Mem n l p → c.Mem n l' p' → l ≤ l' → Near 1 q p' → Anc (l' - l) p q → l' ≤ l + 1

/-- The cell `m` of level `M` lies in the domain. -/
def InDomain (n : Nat) (dom : LCA) (M : Nat) (m : List Int) : Prop := ∃ d, dom.Mem n d ∧ Anc (M - dom.level) d m

/-- A domain that is a union of cells of level `minL`, whose coordinates at level `maxL`, with a margin of `margin` cells of
level 0, stay in the range of `int`. -/
structure GoodDomain (n : Nat) (dom : LCA) (minL maxL margin : Nat) : Prop where
  wf : dom.WF n
  level : dom.level ≤ maxL
  whole : ∀ p m m', Anc (maxL - minL) p m → Anc (maxL - minL) p m' → InDomain n dom maxL m → InDomain n dom maxL m'
  range : ∃ D : Int, 0 ≤ D ∧ D + (margin : Int) * 2 ^ maxL + 2 < INT_MAX ∧ ∀ m, InDomain n dom maxL m → ∀ x ∈ m, x < D

/-- A mesh of leaves that tile the domain, without overlap, graded, with levels between `minL` and `maxL`. -/
structure GoodLeaves (n : Nat) (cells : CA) (dom : LCA) (minL maxL : Nat) : Prop where
  wf : cells.WF n
  leveled : cells.Leveled
  size : maxL ≤ cells.maxSize
  between : cells.Between n minL maxL
  noOverlap : cells.NoOverlap n
  graded : cells.Graded n
  tiles : ∀ m, cells.Tiles n maxL m ↔ InDomain n dom maxL m

/-- The details of the children of the cell `p` of level `l` are below the threshold. In dimension 1 only the first child is looked at: the
details of the two children are opposite. -/
def FamilySmall (n : Nat) (D : DetailMasks) (l : Nat) (p : List Int) : Prop :=
  ∀ c, Anc 1 p c → (n = 0 → c = p.map fun x => 2 * x) → D.small (l + 1) c = true

/-- One call of `Adapt::operator()`: the field may have been changed since the last call, the details are those of this field. -/
structure AdaptCall (K : Type) [Field K] where
  enlarge : Bool
  ghosts : SubMeshes → CellField K → CellField K
  details : SubMeshes → CellField K → Nat → DetailMasks
  field : CellField K

/-- The mesh after a sequence of calls. -/
def runAdapt {K : Type} [Field K] (n : Nat) (cfg : MeshConfig) (gw minL maxL : Nat) (dom : LCA) :
    List (AdaptCall K) → SubMeshes → CA → Option (SubMeshes × CA)
  | [], m, u => some (m, u)
  | c :: cs, m, u =>
    match adapt n cfg gw minL maxL c.enlarge c.ghosts c.details dom m u c.field with
    | none => none
    | some (m', u', _) => runAdapt n cfg gw minL maxL dom cs m' u'

end Samurai
