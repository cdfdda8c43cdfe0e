/-
Meaning of set expressions: no reference to the sweep.
-/
import Verif.Model.Subset
import Verif.Spec.LevelCellArray
import Mathlib.Data.List.Forall2

namespace Samurai

/-- Subtract a stencil from a point; `d` is the direction of the first (outermost) coordinate. -/
def subPoint (s : Nat → Int) : Nat → List Int → List Int
  | _, [] => []
  | d, c :: p => (c - s d) :: subPoint s (d - 1) p

/-- A set of cells of level `lv` seen from level `m`: a cell `p` of level `m` is in it when it has an
ancestor in the set (`lv ≤ m`) or a descendant in the set (`m < lv`). -/
def AtLevel (lv m : Nat) (S : List Int → Prop) (p : List Int) : Prop :=
  if lv ≤ m then ∃ q, S q ∧ List.Forall₂ (IsAncestor (m - lv)) q p
  else ∃ q, S q ∧ List.Forall₂ (IsAncestor (lv - m)) p q

/-- The cells of a node: those of the mesh, a translate contains `p` when the translated set contains
`p - stencil`, a projection is the set seen from its level. -/
def Node.Holds (n : Nat) : Node → List Int → Prop
  | .mesh L, p => L.Mem n p
  | .translate t s, p => t.Holds n (subPoint s n p)
  | .projection t lvl, p => AtLevel t.level lvl (t.Holds n) p

/-- The mesh below the translations. -/
def Node.base : Node → LCA
  | .mesh L => L
  | .translate t _ => t.base
  | .projection t _ => t.base

/-- The sum of the translations. -/
def Node.off : Node → Nat → Int
  | .mesh _ => fun _ => 0
  | .translate t s => fun d => t.off d + s d
  | .projection t _ => t.off

/-- The operands the properties range over: a well-formed level cell array (`LevelCellArray`), or a translate of one.
In dimension 1 (`n = 0`) also translates of translates. -/
def Node.Operand (n : Nat) : Node → Prop
  | .mesh L => L.WF n
  | .translate (.mesh L) _ => L.WF n
  | .translate t _ => n = 0 ∧ t.Operand n
  | .projection _ _ => False

/-- The coordinates of the operand, with a margin of two cells, stay below the largest `int` at level `m`.
(`INT_MAX` means "no value" in the sweep.) -/
def Node.InRange (n m : Nat) (N : Node) : Prop :=
  ∀ d ≤ n, ∀ i ∈ N.base.cells d, (i.stop + N.off d + 1) * 2 ^ (m - N.level) + 1 < INT_MAX

/-- Set algebra on the leaves. -/
def Expr.Holds (f : α → Prop) : Expr α → Prop
  | .leaf a => f a
  | .op .inter a b => a.Holds f ∧ b.Holds f
  | .op .union a b => a.Holds f ∨ b.Holds f
  | .op .diff a b => a.Holds f ∧ ¬ b.Holds f

/-- The finest level of the operands. -/
def Expr.finest (e : Expr Node) : Nat :=
  match e with
  | .leaf N => N.level
  | .op _ a b => Nat.max a.finest b.finest

/-- The cell `p` of level `m` satisfies the expression, each operand being seen from level `m`. -/
def Expr.HoldsAt (n : Nat) (e : Expr Node) (m : Nat) (p : List Int) : Prop :=
  e.Holds fun N => AtLevel N.level m (N.Holds n) p

/-- The cells of `expr.on(ref)`: the expression at level `ref` when `ref` is at most the finest level,
otherwise the expression at the finest level, refined. -/
def SetHolds (n : Nat) (e : Expr Node) (ref : Nat) (p : List Int) : Prop :=
  if ref ≤ e.finest then e.HoldsAt n ref p
  else ∃ q, e.HoldsAt n e.finest q ∧ List.Forall₂ (IsAncestor (ref - e.finest)) q p

/-- Every leaf satisfies `P`. -/
def Expr.All (P : α → Prop) : Expr α → Prop
  | .leaf a => P a
  | .op _ a b => a.All P ∧ b.All P

/-- The cell `p` is passed to the functor by one of the calls. -/
def Covers (calls : List Call) (p : List Int) : Prop := ∃ c ∈ calls, ∃ x ∈ c.2, p = c.1 ++ [x]

/-- Order of the calls: rows in increasing lexicographic order, and in a row the intervals increase and
are not adjacent. -/
def Call.Before (a b : Call) : Prop := a.1 < b.1 ∨ (a.1 = b.1 ∧ a.2.stop < b.2.start)

/-- The canonical sequences of calls: non-empty plain intervals in the order above. -/
def CanonicalCalls (calls : List Call) : Prop :=
  calls.Pairwise Call.Before ∧ ∀ c ∈ calls, c.2.start < c.2.stop ∧ c.2.step = 1 ∧ c.2.index = 0

/-- The operands of an expression are admissible. -/
def Expr.Admissible (n : Nat) (e : Expr Node) : Prop :=
  e.All fun N => N.Operand n ∧ N.InRange n e.finest

/-- What can happen to one expression object: `on(ref)` replaces it by the result (the C++ makes a copy), `operator()`
runs it, and a run abandoned midway (the functor threw) leaves arbitrary cursors and work vectors. -/
inductive SetStep
  | on (ref : Nat)
  | call
  | abandon (cursors : Leaf → Nat × (Nat → LeafDim))

/-- The effect of a step on the object. -/
def SetStep.run (n : Nat) (o : SetObj) : SetStep → Option SetObj
  | .on ref => some (o.on ref)
  | .call => (o.call n).map Prod.fst
  | .abandon c => some { o with tree := o.tree.map fun l => { l with d := (c l).1, dims := (c l).2 } }

end Samurai

