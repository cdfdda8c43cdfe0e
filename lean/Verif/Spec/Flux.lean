/-
Vocabulary for the explicit flux-based schemes.
-/
import Verif.Spec.Interface
import Verif.Model.Flux

namespace Samurai

/-- The cells of the reference mesh have different numbers, and the leaves have the numbers of the reference mesh. -/
structure FVNumbers (n : Nat) (cells ref : CA) : Prop where
  distinct : ((ref.numbered n).map fun e => e.2.2).Nodup
  same : ∀ l p v, (l, p, v) ∈ cells.numbered n → (l, p, v) ∈ ref.numbered n

/-- `fs` are the interfaces of the leaves in the direction `dir`: each pair of leaves that share an interface once, with the right arguments. -/
structure IsInterior (n : Nat) (ref cells : CA) (dir : Nat → Int) (S : List (Nat → Int)) (fs : List FaceCall) : Prop where
  nodup : (fs.map FaceCall.ends).Nodup
  mem : ∀ a b, (a, b) ∈ fs.map FaceCall.ends ↔ Interface n cells dir a b
  right : ∀ f ∈ fs, f.Right n ref dir S

/-- The cell `p` of level `l` is outside the domain. -/
def Outside (n : Nat) (dom : LCA) (maxL l : Nat) (p : List Int) : Prop := ∀ m, Anc (maxL - l) p m → ¬ InDomain n dom maxL m

/-- `bs` are the leaves whose neighbour in the direction `dir` is outside the domain, each once. The computational cells are those of the stencil seen
from the cell `base` of the interface. -/
structure IsBoundary (n : Nat) (ref cells : CA) (dom : LCA) (maxL : Nat) (dir : Nat → Int) (S : List (Nat → Int)) (base : List Int → List Int)
    (bs : List BdryCall) : Prop where
  nodup : (bs.map fun f => f.cell.id).Nodup
  mem : ∀ l p, (l, p) ∈ (bs.map fun f => f.cell.id) ↔ cells.Mem n l p ∧ Outside n dom maxL l (shiftPoint dir n p)
  right : ∀ f ∈ bs, CellIs n ref f.cell.level f.cell.pt f.cell ∧
    List.Forall₂ (fun s c => CellIs n ref f.cell.level (shiftPoint s n (base f.cell.pt)) c) S f.comput

/-- For each Cartesian direction `d`: the interior interfaces `fs d`, the boundary interfaces `bs d` in this direction and `bs' d` in the opposite
direction. -/
def SchemeCalls (n : Nat) (ref cells : CA) (dom : LCA) (maxL : Nat) (S : Nat → List (Nat → Int)) (fs : Nat → List FaceCall)
    (bs bs' : Nat → List BdryCall) : Prop :=
  ∀ d ≤ n, IsInterior n ref cells (unitDir d) (S d) (fs d) ∧ IsBoundary n ref cells dom maxL (unitDir d) (S d) (fun p => p) (bs d) ∧
    IsBoundary n ref cells dom maxL (fun k => - unitDir d k) (S d) (fun p => shiftPoint (fun k => - unitDir d k) n p) (bs' d)

section
variable {K V : Type} [Field K] [AddCommGroup V] [Module K V]

/-- The integral of the output field of a scheme: the sum, over the leaves, of volume times value. -/
def fluxIntegral (n : Nat) (h0 : K) (cells : CA) (out : Int → V) : V :=
  ((cells.numbered n).map fun e => (cellLength h0 e.1) ^ (n + 1) • out e.2.2).sum

/-- What the interface `f` gives to the cell `c` (level and coordinates): the measure of the interface times the flux, in the positive direction for
the cell before the interface, in the negative direction for the cell after it. -/
def faceShare (n : Nat) (h0 : K) (F : List MCell → V × V) (c : Nat × List Int) (f : FaceCall) : V :=
  (if f.left.id = c then (cellLength h0 (max f.left.level f.right.level)) ^ n • (F f.comput).1 else 0) +
    if f.right.id = c then (cellLength h0 (max f.left.level f.right.level)) ^ n • (F f.comput).2 else 0

/-- The flux through the boundary interface of a cell. -/
def bdryShare (n : Nat) (h0 : K) (F : List MCell → V) (f : BdryCall) : V := (cellLength h0 f.cell.level) ^ n • F f.comput

/-- What one direction of a scheme gives to the cell `c`: the interfaces `fs` and, when the boundary is included, the boundary interfaces `bs` in this
direction and `bs'` in the opposite direction. -/
def dirShare (n : Nat) (h0 : K) (F : List MCell → V × V) (bdry : Bool) (fs : List FaceCall) (bs bs' : List BdryCall) (c : Nat × List Int) : V :=
  (fs.map fun f => faceShare n h0 F c f).sum +
    if bdry then (bs.map fun f => if f.cell.id = c then bdryShare n h0 (fun x => (F x).1) f else 0).sum +
      (bs'.map fun f => if f.cell.id = c then bdryShare n h0 (fun x => (F x).2) f else 0).sum
    else 0

end

end Samurai
