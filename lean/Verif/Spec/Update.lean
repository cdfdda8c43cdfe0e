/-
Vocabulary for the adaptation: tilings, effect of a tag, integral of a field.
-/
import Verif.Spec.Mesh
import Verif.Model.Update

namespace Samurai

/-- No cell of the mesh lies in another one. -/
def CA.NoOverlap (n : Nat) (c : CA) : Prop :=
  ∀ l p l' p', c.Mem n l p → c.Mem n l' p' → l ≤ l' → Anc (l' - l) p p' → l = l' ∧ p = p'

/-- The cell `m` of level `M` lies in a cell of the mesh. -/
def CA.Tiles (n : Nat) (c : CA) (M : Nat) (m : List Int) : Prop := ∃ l p, l ≤ M ∧ c.Mem n l p ∧ Anc (M - l) p m

/-- The tag of a leaf. -/
def LeafTag (n : Nat) (cells : CA) (tag : Int → BitVec 32) (l : Nat) (p : List Int) (t : BitVec 32) : Prop :=
  ∃ v, (l, p, v) ∈ cells.numbered n ∧ tag v = t

/-- What a tag asks for: `refine` wins over `keep`, which wins over `coarsen`. -/
def AsksRefine (t : BitVec 32) : Prop := t &&& 4#32 ≠ 0#32
def AsksKeep (t : BitVec 32) : Prop := ¬ AsksRefine t ∧ t &&& 1#32 ≠ 0#32
def AsksCoarsen (t : BitVec 32) : Prop := ¬ AsksRefine t ∧ ¬ AsksKeep t ∧ t &&& 2#32 ≠ 0#32

/-- The cell `(l, p)` with tag `t` is replaced by cells among which is `(l', p')`. -/
def Becomes (minL maxL : Nat) (t : BitVec 32) (l : Nat) (p : List Int) (l' : Nat) (p' : List Int) : Prop :=
  (AsksRefine t ∧ l < maxL ∧ l' = l + 1 ∧ Anc 1 p p') ∨
  (AsksCoarsen t ∧ minL < l ∧ l = l' + 1 ∧ Anc 1 p' p) ∨
  (((AsksRefine t ∧ maxL ≤ l) ∨ AsksKeep t ∨ (AsksCoarsen t ∧ l ≤ minL)) ∧ l' = l ∧ p' = p)

/-- Every leaf has a tag that asks for something. -/
def TagsSet (n : Nat) (cells : CA) (tag : Int → BitVec 32) : Prop :=
  ∀ l p t, LeafTag n cells tag l p t → AsksRefine t ∨ AsksKeep t ∨ AsksCoarsen t

/-- A leaf above `minL` asks to be coarsened only together with all its siblings. -/
def SiblingsAgree (n : Nat) (cells : CA) (minL : Nat) (tag : Int → BitVec 32) : Prop :=
  ∀ l p t, minL < l → LeafTag n cells tag l p t → AsksCoarsen t → ∀ r q, Anc 1 r p → Anc 1 r q →
    ∃ t', LeafTag n cells tag l q t' ∧ AsksCoarsen t'

/-- The volume of a cell of level `l` in dimension `dim`. -/
def cellVolume (K : Type) [Field K] (dim l : Nat) : K := ((1 / 2 : K) ^ l) ^ dim

/-- The integral of a field: the sum, over the leaves in the order of `for_each_cell`, of value times volume. -/
def integral {K : Type} [Field K] (n : Nat) (cells : CA) (f : CellField K) : K :=
  ((cells.numbered n).map fun e => f e.1 e.2.1 * cellVolume K (n + 1) e.1).sum

end Samurai
