/-
Vocabulary for the adaptation of AMR meshes: the flags that must be added to the tags, stencils, graded meshes.
-/
import Verif.Spec.Adapt
import Verif.Spec.Graduation
import Verif.Model.AMRAdapt

namespace Samurai

/-- Tag flags of a cell. -/
def HasKeep (t : TagField) (l : Nat) (p : List Int) : Prop := t l p &&& 1#32 ≠ 0#32
def HasCoarsen (t : TagField) (l : Nat) (p : List Int) : Prop := t l p &&& 2#32 ≠ 0#32
def HasRefine (t : TagField) (l : Nat) (p : List Int) : Prop := t l p &&& 4#32 ≠ 0#32

/-- The least set of flags `refine`: those of the criterion, and a leaf in which falls a leaf to refine, one level finer, moved by a vector of the
stencil. -/
inductive MustRefine (n : Nat) (S : List (Nat → Int)) (cells : CA) (t : TagField) : Nat → List Int → Prop
  | criterion {l p} : HasRefine t l p → MustRefine n S cells t l p
  | neighbour {l c s p} : cells.Mem n (l + 1) c → s ∈ S → MustRefine n S cells t (l + 1) c → Anc 1 p (shiftPoint s n c) → cells.Mem n l p →
      MustRefine n S cells t l p

/-- The least set of flags `keep`: those of the criterion; the cells within `gw` of a leaf to refine; the parents of the leaves (cells of the reference
mesh `all`); the siblings of a kept cell, when one of them is a leaf; and a leaf in which falls a kept leaf, one level finer, moved by a vector of the
stencil. -/
inductive MustKeep (n gw : Nat) (S : List (Nat → Int)) (cells all : CA) (t : TagField) : Nat → List Int → Prop
  | criterion {l p} : HasKeep t l p → MustKeep n gw S cells all t l p
  | around {l c p} : cells.Mem n l c → MustRefine n S cells t l c → Near gw p c → MustKeep n gw S cells all t l p
  | parent {l c p} : cells.Mem n (l + 1) c → Anc 1 p c → all.Mem n l p → MustKeep n gw S cells all t l p
  | siblings {l r c q p} : cells.Mem n (l + 1) c → MustKeep n gw S cells all t (l + 1) q → Anc 1 r c → Anc 1 r q → Anc 1 r p →
      MustKeep n gw S cells all t (l + 1) p
  | neighbour {l c s p} : cells.Mem n (l + 1) c → s ∈ S → MustKeep n gw S cells all t (l + 1) c → Anc 1 p (shiftPoint s n c) → cells.Mem n l p →
      MustKeep n gw S cells all t l p

/-- The leaf `(l, q)` is replaced by leaves among which is `(l', p)`: `refine` wins over `keep`, which wins over `coarsen`. -/
def NewLeaf (minL maxL : Nat) (refine keep : Prop) (l : Nat) (q : List Int) (l' : Nat) (p : List Int) : Prop :=
  (refine ∧ l < maxL ∧ l' = l + 1 ∧ Anc 1 q p) ∨ (¬ refine ∧ ¬ keep ∧ minL < l ∧ l = l' + 1 ∧ Anc 1 p q) ∨
    ((refine → maxL ≤ l) ∧ (¬ refine → ¬ keep → l ≤ minL) ∧ l' = l ∧ p = q)

/-- Two neighbouring leaves have levels that differ by at most one; `near` says when two cells of the same level are neighbours. `CA.Graded` and
`CA.FaceGraded` are the cases of `Near 1` (also by a corner) and `FaceNeighbours`. -/
def CA.GradedBy (n : Nat) (near : List Int → List Int → Prop) (c : CA) : Prop :=
  ∀ l p l' p' q, c.Mem n l p → c.Mem n l' p' → l ≤ l' → near q p' → Anc (l' - l) p q → l' ≤ l + 1

/-- Every neighbour of a cell that has another parent has the parent of the cell moved by some vector of the stencil. -/
def Reaches (n : Nat) (near : List Int → List Int → Prop) (S : List (Nat → Int)) : Prop :=
  ∀ y z, y.length = n + 1 → near z y → (∀ r, ¬ (Anc 1 r y ∧ Anc 1 r z)) → ∃ s ∈ S, ∃ r, Anc 1 r z ∧ Anc 1 r (shiftPoint s n y)

/-- A stencil for `graduation`: its components are at most `g` in absolute value and, in dimension 1, at most one. -/
def GradStencilOK (n g : Nat) (S : List (Nat → Int)) : Prop :=
  ∀ s ∈ S, ∀ d, s d ≤ (g : Int) ∧ -(g : Int) ≤ s d ∧ (n = 0 → s d ≤ 1 ∧ -1 ≤ s d)

/-- A mesh of leaves that tile the domain, without overlap, graded, with levels between `minL` and `maxL`; there is at least one leaf. -/
structure AMRLeaves (n : Nat) (near : List Int → List Int → Prop) (cells : CA) (dom : LCA) (minL maxL : Nat) : Prop where
  wf : cells.WF n
  leveled : cells.Leveled
  size : maxL ≤ cells.maxSize
  between : cells.Between n minL maxL
  noOverlap : cells.NoOverlap n
  graded : cells.GradedBy n near
  tiles : ∀ m, cells.Tiles n maxL m ↔ InDomain n dom maxL m
  some : ∃ l p, cells.Mem n l p

/-- Every leaf has a flag. -/
def AllTagged (n : Nat) (cells : CA) (t : TagField) : Prop :=
  ∀ l p, cells.Mem n l p → HasKeep t l p ∨ HasRefine t l p ∨ HasCoarsen t l p

/-- One turn of the adaptation loop: the tags chosen by the criterion and the field with its ghosts, which may depend on the mesh and on the field. -/
structure AMRTurn (K : Type) [Field K] where
  tags : AMRMeshes → CellField K → TagField
  field : AMRMeshes → CellField K → CellField K

/-- The mesh and the field after a sequence of turns. -/
def runAmr {K : Type} [Field K] (n : Nat) (cfg : MeshConfig) (gw minL maxL : Nat) (S : List (Nat → Int)) (dom : LCA) :
    List (AMRTurn K) → AMRMeshes → CA → CellField K → Option (AMRMeshes × CA × CellField K)
  | [], m, u, f => Option.some (m, u, f)
  | c :: cs, m, u, f =>
    match amrAdapt n cfg gw minL maxL S dom (c.tags m f) m u (c.field m f) with
    | none => none
    | Option.some (_, m', u', f') => runAmr n cfg gw minL maxL S dom cs m' u' f'

end Samurai
