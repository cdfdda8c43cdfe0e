/-
Model of `include/samurai/graduation.hpp` on a `CellArray`: `is_graduated` and `make_graduation`. A stencil is the list of its vectors (see
`Model/Stencil.lean`). The dimension is `n + 1`.
-/
import Verif.Model.Stencil
import Verif.Model.Mesh

namespace Samurai

/-- The turns of the three nested loops on `level`, `level_below` and `is` (graduation.hpp:18-24, 57-63). The subtraction `level - 1` does not
wrap: `level` is at least 2. -/
def gradTurns (minL maxL : Nat) (stencil : List (Nat → Int)) : List (Nat × Nat × (Nat → Int)) :=
  (List.range' (minL + 2) (maxL + 1 - (minL + 2))).flatMap fun level =>
    (List.range' minL (level - 1 - minL)).flatMap fun below => stencil.map fun s => (level, below, s)

/-- `intersection(translate(mesh[level], s), mesh[level_below]).on(level_below)` applied to a functor (graduation.hpp:25-30, 64-69). -/
def gradSet (n : Nat) (c : CA) (level below : Nat) (s : Nat → Int) : Option (List Call) :=
  runSet n (.op .inter (.leaf (.translate (.mesh (c.lca level)) s)) (.leaf (.mesh (c.lca below)))) below

/-- One turn of the loops of `is_graduated` (graduation.hpp:25-34): after a `return false` the other turns do nothing. -/
def isGradTurn (n : Nat) (c : CA) (cond : Bool) (t : Nat × Nat × (Nat → Int)) : Option Bool :=
  if cond then (gradSet n c t.1 t.2.1 t.2.2).map fun calls => calls.isEmpty else some false

/-- `is_graduated(mesh, stencil)` (graduation.hpp:10-39). -/
def isGraduated (n : Nat) (stencil : List (Nat → Int)) (c : CA) : Option Bool :=
  (gradTurns c.minLevel c.maxLevel stencil).foldlM (isGradTurn n c) true

/-- `tag(level_below, i, index) = true` (graduation.hpp:68): the view of the array `tag` made of the numbers of the cells of `i`
(field.hpp:116-122), found by `get_interval`. -/
def gradMark (n : Nat) (c : CA) (below : Nat) (tag : Int → Bool) (call : Call) : Option (Int → Bool) :=
  match getInterval (c.lca below) n (call.1 ++ [call.2.start]) with
  | none => none
  | some j => some fun v => if j.index + call.2.start ≤ v ∧ v < j.index + call.2.stop then true else tag v

/-- One turn of the loops of `make_graduation` (graduation.hpp:63-70). -/
def gradTurn (n : Nat) (c : CA) (tag : Int → Bool) (t : Nat × Nat × (Nat → Int)) : Option (Int → Bool) :=
  match gradSet n c t.1 t.2.1 t.2.2 with
  | none => none
  | some calls => calls.foldlM (gradMark n c t.2.1) tag

/-- The tags (graduation.hpp:54-72). -/
def gradTags (n minL maxL : Nat) (stencil : List (Nat → Int)) (c : CA) : Option (Int → Bool) :=
  (gradTurns minL maxL stencil).foldlM (gradTurn n c) fun _ => false

/-- The body of the loop on `i` (graduation.hpp:79-94): the calls on `cl` for the cell `(yz, x)` of level `l`. -/
def gradCell (tagged : Bool) (l : Nat) (yz : List Int) (x : Int) : List (Nat × CellCall) :=
  if tagged then
    (nestedIndices 2 yz.length).map fun st =>
      (l + 1, .interval (List.zipWith (fun y s => 2 * y + s) yz st) (Interval.mk' (2 * x) (2 * x + 2)))
  else [(l, .cell yz x)]

/-- The functor of the `for_each_interval` (graduation.hpp:75-95). -/
def gradInterval (tag : Int → Bool) (l : Nat) (yz : List Int) (i : Interval) : List (Nat × CellCall) :=
  (List.range (i.stop - i.start).toNat).flatMap fun (k : Nat) =>
    gradCell (tag (i.start + i.index + (k : Int))) l yz (i.start + (k : Int))

/-- `cl` and `new_ca` (graduation.hpp:74-96). -/
def gradMesh (n : Nat) (tag : Int → Bool) (c : CA) : Option CA :=
  match collectCalls n (gradInterval tag) c with
  | none => none
  | some h =>
    match (CL.new n c.maxSize).calls h with
    | none => none
    | some cl => updateIndexCA n (CA.ofCL cl)

/-- The loop `while (true)` (graduation.hpp:52-104), at most `fuel` turns: `none` when they are not enough, or for undefined behaviour. -/
def gradLoop (n minL maxL : Nat) (stencil : List (Nat → Int)) : Nat → CA → Option CA
  | 0, _ => none
  | fuel + 1, c =>
    match gradTags n minL maxL stencil c with
    | none => none
    | some tag =>
      match gradMesh n tag c with
      | none => none
      | some new => if new.beq n c then some c else gradLoop n minL maxL stencil fuel new

/-- `make_graduation(mesh, stencil)` (graduation.hpp:41-105): the bounds of the levels are computed once. -/
def makeGraduation (n : Nat) (stencil : List (Nat → Int)) (fuel : Nat) (c : CA) : Option CA :=
  gradLoop n c.minLevel c.maxLevel stencil fuel c

end Samurai
