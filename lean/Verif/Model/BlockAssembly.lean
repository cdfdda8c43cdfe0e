/-
Model of the block operators: `schemes/block_operator.hpp`, `petsc/block_assembly.hpp`, `petsc/zero_block_assembly.hpp`, and the right-hand side of
`petsc/linear_block_solver.hpp`. The fields of the unknowns are on the same mesh. `n` is `dim - 1`. Exact arithmetic.
-/
import Verif.Model.CellScheme
import Verif.Model.PetscSystem

namespace Samurai

section
variable {K : Type} [Field K] {R C : Nat}

/-- A block operator with `R` rows and `C` columns (block_operator.hpp:6-40): the block `(r, c)` is a sum of linear schemes (one, in general) from the fields with `sz c` components to
those with `rz r` components; `none` is the block `0` (`Assembly<int>`, zero_block_assembly.hpp:11-26). -/
abbrev Blocks (K : Type) [Field K] {R C : Nat} (rz : Fin R → Nat) (sz : Fin C → Nat) := (r : Fin R) → (c : Fin C) → Option (List (LinOp K (sz c) (rz r)))

variable {rz : Fin R → Nat} {sz : Fin C → Nat}

/-! ### sizes and shifts -/

/-- The number of rows (columns) that `check_and_set_sizes` gives to the blocks of a row (column) (block_assembly.hpp:95-164): the first number that is not 0 of the blocks that are
not `0`. -/
def fitSize (own : List (Option Nat)) : Nat := own.foldl (fun b o => match o with
  | some v => if b = 0 then v else b
  | none => b) 0

/-- `matrix_rows()` of the blocks of the row `r` (FV_scheme_assembly.hpp:189-192, block_assembly.hpp:98-130), with `N` cells. -/
def blockRows (B : Blocks K rz sz) (N : Nat) (r : Fin R) : Nat := fitSize ((List.finRange C).map fun c => (B r c).map fun _ => N * rz r)

/-- `matrix_cols()` of the blocks of the column `c` (FV_scheme_assembly.hpp:194-197, block_assembly.hpp:131-163). -/
def blockCols (B : Blocks K rz sz) (N : Nat) (c : Fin C) : Nat := fitSize ((List.finRange R).map fun r => (B r c).map fun _ => N * sz c)

/-- `row_shift` (block_assembly.hpp:508-522): the loop adds the rows of the last block at the end of each row. -/
def rowShift (B : Blocks K rz sz) (N : Nat) (r : Fin R) : Int := ((((List.finRange R).take r).map fun q => blockRows B N q).sum : Nat)

/-- `col_shift` (block_assembly.hpp:508-522): 0 at the beginning of a row, then the columns of each block are added. -/
def colShift (B : Blocks K rz sz) (N : Nat) (c : Fin C) : Int := ((((List.finRange C).take c).map fun q => blockCols B N q).sum : Nat)

/-- `matrix_rows()` of the monolithic assembly (block_assembly.hpp:527-539): the sum on the diagonal blocks. -/
def totalRows (B : Blocks K rz sz) (N : Nat) : Nat := (((List.finRange R).filter fun r => r.val < C).map fun r => blockRows B N r).sum

/-- `matrix_cols()` of the monolithic assembly (block_assembly.hpp:541-553): the sum on the diagonal blocks. -/
def totalCols (B : Blocks K rz sz) (N : Nat) : Nat := (((List.finRange C).filter fun c => c.val < R).map fun c => blockCols B N c).sum

/-- `create_fields_IS` (block_assembly.hpp:845-862): the numbers of the unknowns of the field `c`; the blocks of the row 1 give them, `none` is an uninitialised index set. -/
def fieldsIS (B : Blocks K rz sz) (N : Nat) (c : Fin C) : Option (List Int) :=
  if 1 < R then some ((List.range (blockCols B N c)).map fun (i : Nat) => colShift B N c + (i : Int)) else none

/-! ### the vectors -/

/-- `copy(f, v, shift)` (petsc/utils.hpp:41-55): the calls of `VecSetValue`, `a` is the array of the field, with `len` values. -/
def copyToVec (len : Nat) (shift : Int) (a : Int → K) : List (Int × K) := (List.range len).map fun (i : Nat) => (shift + (i : Int), a i)

/-- `copy(shift, v, f)` (petsc/utils.hpp:93-111): the array of the field after the loop, `old` before. -/
def copyFromVec (len : Nat) (shift : Int) (v old : Int → K) : Int → K := fun i => if 0 ≤ i ∧ i < len then v (shift + i) else old i

/-- `create_rhs_vector` of the monolithic assembly (block_assembly.hpp:701-722), `a r` is the array of the field `r`. -/
def createRhsVector (B : Blocks K rz sz) (N : Nat) (a : Fin R → Int → K) : Int → K :=
  ((List.finRange R).flatMap fun r => copyToVec (N * rz r) (rowShift B N r) (a r)).foldl vecInsert fun _ => 0

/-- `create_applicable_vector` of the monolithic assembly (block_assembly.hpp:724-744). -/
def createApplicableVector (B : Blocks K rz sz) (N : Nat) (a : Fin C → Int → K) : Int → K :=
  ((List.finRange C).flatMap fun c => copyToVec (N * sz c) (colShift B N c) (a c)).foldl vecInsert fun _ => 0

/-- `update_unknowns` of the monolithic assembly (block_assembly.hpp:813-823): the array of the field `c`. -/
def updateUnknowns (B : Blocks K rz sz) (N : Nat) (x : Int → K) (old : Fin C → Int → K) (c : Fin C) : Int → K := copyFromVec (N * sz c) (colShift B N c) x (old c)

/-- `update_result_fields` of the monolithic assembly (block_assembly.hpp:825-843): the array of the field `r`. -/
def updateResultFields (B : Blocks K rz sz) (N : Nat) (b : Int → K) (old : Fin R → Int → K) (r : Fin R) : Int → K := copyFromVec (N * rz r) (rowShift B N r) b (old r)

/-! ### the matrix -/

/-- Where the block `(r, c)` puts its coefficients (FV_scheme_assembly.hpp:199-230): `soa c` is the layout of the field `c`, the one of the rows too. -/
def blockLayout (B : Blocks K rz sz) (soa : Fin C → Bool) (N : Nat) (r : Fin R) (c : Fin C) : MatLayout := ⟨soa c, N, sz c, rz r, rowShift B N r, colShift B N c⟩

/-- The blocks in the order of `for_each_assembly_op` (block_assembly.hpp:61-73). -/
def blockPairs (R C : Nat) : List (Fin R × Fin C) := (List.finRange R).flatMap fun r => (List.finRange C).map fun c => (r, c)

/-- `assemble_scheme(A)` of a block (zero_block_assembly.hpp:32-34 for the block `0`). -/
def assembleBlock {m p : Nat} (n : Nat) (h0 : K) (L : MatLayout) (rec : GhostMap K) (ref : CA) (sub : LCA) (cells : CA) (maxL : Nat) : Option (List (LinOp K m p)) → Option (List (MatEntry K))
  | none => some []
  | some ops => overList (LinOp.assemble n h0 L rec ref sub cells maxL) ops

/-- `assemble_scheme(A)` of the monolithic assembly (block_assembly.hpp:612-626). -/
def assembleBlocks (n : Nat) (h0 : K) (B : Blocks K rz sz) (soa : Fin C → Bool) (N : Nat) (rec : GhostMap K) (ref : CA) (sub : LCA) (cells : CA) (maxL : Nat) :
    Option (List (MatEntry K)) :=
  overList (fun x => assembleBlock n h0 (blockLayout B soa N x.1 x.2) rec ref sub cells maxL (B x.1 x.2)) (blockPairs R C)

end

/-! ### square operators: the system -/

section
variable {K : Type} [Field K] {R n : Nat} {s : Fin R → Nat}

/-- `assemble_boundary_conditions` of the diagonal block `r` (block_assembly.hpp:628-638): only the diagonal blocks include the boundary conditions (block_assembly.hpp:35-42). -/
def diagBc [DecidableEq K] (h0 : K) (B : Blocks K s s) (soa : Fin R → Bool) (N : Nat) (ref cells : CA) (bcs : (r : Fin R) → List (FieldBc K n (s r))) (r : Fin R) :
    Option (List (MatEntry K)) :=
  match B r r with
  | none => some []
  | some _ => (bcCalls n h0 ref cells (bcs r)).map fun l => l.flatMap (bcEntriesOf h0 (blockLayout B soa N r r))

/-- The rows of the diagonal block `r` that are not empty: those of the operator of the sum with the largest stencil and of the boundary conditions. -/
def diagMarked [DecidableEq K] (h0 : K) (B : Blocks K s s) (soa : Fin R → Bool) (N : Nat) (ref : CA) (sub : LCA) (cells : CA) (maxL : Nat)
    (bcs : (r : Fin R) → List (FieldBc K n (s r))) (r : Fin R) : Option (List Int) :=
  match ((B r r).bind fun ops => ops[largestIndex (ops.map LinOp.stencilSize)]?).bind (LinOp.marks n h0 (blockLayout B soa N r r) ref sub cells maxL), diagBc h0 B soa N ref cells bcs r with
  | some l, some T => some (l ++ T.map Prod.fst)
  | _, _ => none

/-- The rows of `insert_value_on_diag_for_useless_ghosts` and `set_0_for_useless_ghosts` of the diagonal block `r`, from its first row (block_assembly.hpp:676-686, 785-795). -/
def diagUseless [DecidableEq K] (h0 : K) (B : Blocks K s s) (soa : Fin R → Bool) (N : Nat) (ref : CA) (sub : LCA) (cells : CA) (maxL : Nat)
    (bcs : (r : Fin R) → List (FieldBc K n (s r))) (r : Fin R) : Option (List Nat) :=
  match B r r with
  | none => some []
  | some _ => (diagMarked h0 B soa N ref sub cells maxL bcs r).map (uselessRows (blockLayout B soa N r r))

/-- `assemble_matrix` (matrix_assembly.hpp:211-245) of the monolithic assembly: the schemes of all the blocks, then the boundary conditions of the diagonal blocks, then their ghosts
without equation (`diag` is the value of all the diagonal blocks). -/
def assembleBlockMatrix [DecidableEq K] (h0 diag : K) (B : Blocks K s s) (soa : Fin R → Bool) (N : Nat) (rec : GhostMap K) (ref : CA) (sub : LCA) (cells : CA) (maxL : Nat)
    (bcs : (r : Fin R) → List (FieldBc K n (s r))) : Option (Int → Int → K) :=
  match assembleBlocks n h0 B soa N rec ref sub cells maxL, overList (diagBc h0 B soa N ref cells bcs) (List.finRange R),
    overList (fun r => (diagUseless h0 B soa N ref sub cells maxL bcs r).map fun l => l.map fun (i : Nat) => (rowShift B N r + (i : Int), colShift B N r + (i : Int), diag)) (List.finRange R) with
  | some E, some T, some U => some (U.foldl matInsert (T.foldl matInsert (schemeMatrix E)))
  | _, _, _ => none

/-- `prepare_rhs_and_solve` before the solver (linear_solver.hpp:173-183) with `enforce_bc`, `enforce_projection_prediction` and `set_0_for_useless_ghosts` of the monolithic assembly
(block_assembly.hpp:760-795). -/
def prepareBlockRhs [DecidableEq K] (origin : Fin (n + 1) → K) (h0 : K) (B : Blocks K s s) (soa : Fin R → Bool) (N : Nat) (ref cag : CA) (sub : LCA) (cells : CA) (maxL : Nat)
    (bcs : (r : Fin R) → List (FieldBc K n (s r))) (b : Int → K) : Option (Int → K) :=
  match overList (fun r => (bcCalls n h0 ref cells (bcs r)).map fun l => l.flatMap (bcRhsOf origin h0 (blockLayout B soa N r r))) (List.finRange R),
    overList (fun r => (eliminatedGhosts n ref cag cells).map fun G => G.flatMap fun k => (List.range (s r)).map fun i => ((blockLayout B soa N r r).row k i, (0 : K))) (List.finRange R),
    overList (fun r => (diagUseless h0 B soa N ref sub cells maxL bcs r).map fun l => l.map fun (i : Nat) => (rowShift B N r + (i : Int), (0 : K))) (List.finRange R) with
  | some a, some g, some z => some ((a ++ g ++ z).foldl vecInsert b)
  | _, _, _ => none

/-! ### the nested assembly -/

/-- The block `(r, c)` of the nested assembly, without shifts (block_assembly.hpp:289-315, matrix_assembly.hpp:211-245): the boundary conditions and the ghosts without equation for
the diagonal blocks only. -/
def nestedBlock [DecidableEq K] (h0 diag : K) (B : Blocks K s s) (soa : Fin R → Bool) (N : Nat) (rec : GhostMap K) (ref : CA) (sub : LCA) (cells : CA) (maxL : Nat)
    (bcs : (r : Fin R) → List (FieldBc K n (s r))) (r c : Fin R) : Option (Int → Int → K) :=
  if r = c then
    match B r r with
    | none => some fun _ _ => 0
    | some ops => (assembleSum n h0 diag ⟨soa r, N, s r, s r, 0, 0⟩ rec ref sub cells maxL ops (bcs r)).map Prod.fst
  else (assembleBlock n h0 ⟨soa c, N, s c, s r, 0, 0⟩ rec ref sub cells maxL (B r c)).map schemeMatrix

/-- The block `r` of the right-hand side of the nested assembly (block_assembly.hpp:353-380, 394-406): `b` is the sub-vector of the row `r`. -/
def nestedRhs [DecidableEq K] (origin : Fin (n + 1) → K) (h0 diag : K) (B : Blocks K s s) (soa : Fin R → Bool) (N : Nat) (rec : GhostMap K) (ref cag : CA) (sub : LCA) (cells : CA) (maxL : Nat)
    (bcs : (r : Fin R) → List (FieldBc K n (s r))) (r : Fin R) (b : Int → K) : Option (Int → K) :=
  match B r r with
  | none => some b
  | some ops => (assembleSum n h0 diag ⟨soa r, N, s r, s r, 0, 0⟩ rec ref sub cells maxL ops (bcs r)).bind fun a =>
      prepareRhs n origin h0 ⟨soa r, N, s r, s r, 0, 0⟩ ref cag cells (bcs r) a.2 b

end

end Samurai
