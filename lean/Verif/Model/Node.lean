/-
Model of `include/samurai/subset/node_op.hpp`: the leaves of a set expression.
-/
import Verif.Model.LevelCellArray

namespace Samurai

/-- `std::numeric_limits<int>::max()` (32-bit `int`), used as "no value" by the sweep. -/
def INT_MAX : Int := 2147483647
/-- `std::numeric_limits<int>::min()`. -/
def INT_MIN : Int := -2147483648

/-- `detail::shift_value` (subset_node.hpp:22-26). -/
def shiftValue (v s : Int) : Int := if 0 ≤ s then shl v s.toNat else shr v (-s).toNat

/-- The node types: `mesh_node` (node_op.hpp:182-214), `translate_op` (316-339) and
`projection_op` (381-405). A stencil is a function of the direction (0 is x). -/
inductive Node
  | mesh (L : LCA)
  | translate (t : Node) (stencil : Nat → Int)
  | projection (t : Node) (level : Nat)

namespace Node

/-- `level()` (node_op.hpp:161-165, 300-304, 444-448). For `projection_op` the level given to the
rvalue constructor (411-417). -/
def level : Node → Nat
  | mesh L => L.level
  | translate t _ => t.level
  | projection _ lvl => lvl

/-- `m_shift_level` of a `projection_op` (node_op.hpp:414). -/
def projShift (t : Node) (lvl : Nat) : Int := (lvl : Int) - t.level

/-- `size(d)` (node_op.hpp:98-102, 232-236). -/
def size : Node → Nat → Nat
  | mesh L, d => (L.cells d).length
  | translate t _, d => t.size d
  | projection t _, d => t.size d

/-- `start(d, index)` (node_op.hpp:238-246, 359-363, 426-430). -/
def start : Node → Nat → Nat → Option Int
  | mesh L, d, k => if L.isEmpty then some INT_MAX else ((L.cells d)[k]?).map (·.start)
  | translate t s, d, k => (t.start d k).map (· + s d)
  | projection t lvl, d, k => (t.start d k).map (shiftValue · (projShift t lvl))

/-- `end(d, index)` (node_op.hpp:248-256, 365-369, 432-436). -/
def stop : Node → Nat → Nat → Option Int
  | mesh L, d, k => if L.isEmpty then some INT_MAX else ((L.cells d)[k]?).map (·.stop)
  | translate t s, d, k => (t.stop d k).map (· + s d)
  | projection t lvl, d, k => (t.stop d k).map (shiftValue · (projShift t lvl))

/-- `offset(d, off_ind)` (node_op.hpp:116-120, 258-262): `m_data.offsets(d)[off_ind]`, where
`offsets(d)` is `m_offsets[d - 1]`. -/
def offset : Node → Nat → Nat → Option Nat
  | mesh L, d, o => (L.offsets (d - 1))[o]?
  | translate t _, d, o => t.offset d o
  | projection t _, d, o => t.offset d o

/-- `interval(d, index)` (node_op.hpp:122-126, 270-274). -/
def interval : Node → Nat → Nat → Option Interval
  | mesh L, d, k => (L.cells d)[k]?
  | translate t _, d, k => t.interval d k
  | projection t _, d, k => t.interval d k

/-- `find(d, start, end, coord)` (node_op.hpp:128-133, 276-280). -/
def find : Node → Nat → Nat → Nat → Int → Option (Option Nat)
  | mesh L, d, lo, hi, c => findOnDim L d lo hi c
  | translate t _, d, lo, hi, c => t.find d lo hi c
  | projection t _, d, lo, hi, c => t.find d lo hi c

/-- `transform(d, coord)` (node_op.hpp:282-286, 371-375, 438-442). It does not call the transform of
the node below. -/
def transform : Node → Nat → Int → Int
  | mesh _, _, c => c
  | translate _ s, d, c => c - s d
  | projection t lvl, _, c => shiftValue c (-(projShift t lvl))

/-- `is_empty()` (node_op.hpp:167-171, 306-310). -/
def isEmpty : Node → Bool
  | mesh L => L.isEmpty
  | translate t _ => t.isEmpty
  | projection t _ => t.isEmpty

end Node
end Samurai
