/-
Model of the assembly of the matrix of a linear flux-based scheme: `petsc/fv/FV_scheme_assembly.hpp` and
`petsc/fv/flux_based_scheme_assembly.hpp`, with `for_each_projection_ghost_and_children_cells` and `for_each_prediction_ghost`
(`indices.hpp`). The matrix is the function of its coefficients, modified by `MatSetValue`; the preallocation (`sparsity_pattern_*`, which changes no
coefficient) is in Model/Sparsity.lean. `n` is `dim - 1`. Exact arithmetic.
-/
import Verif.Model.Operators
import Verif.Model.Prediction
import Verif.Model.GhostUpdate

namespace Samurai

section
variable {K : Type} [Field K]

/-! ### ghosts as linear combinations -/

/-- `CellLinearCombination` (FV_scheme_assembly.hpp:64-65): numbers of cells and coefficients. -/
abbrev LinComb (K : Type) := List (Int × K)

/-- `recursion_t` (FV_scheme_assembly.hpp:66): a `std::map`, in the order of its keys. -/
abbrev GhostMap (K : Type) := List (Int × LinComb K)

/-- `std::map::insert`: a key already present keeps its value. -/
def GhostMap.insert (k : Int) (v : LinComb K) : GhostMap K → GhostMap K
  | [] => [(k, v)]
  | (k', v') :: m => if k < k' then (k, v) :: (k', v') :: m else if k = k' then (k', v') :: m else (k', v') :: GhostMap.insert k v m

/-- `std::map::find`. -/
def GhostMap.find (m : GhostMap K) (k : Int) : Option (LinComb K) := List.lookup k m

/-- `pair.second = v` for the key `k`. -/
def GhostMap.set (k : Int) (v : LinComb K) : GhostMap K → GhostMap K
  | [] => []
  | (k', v') :: m => if k = k' then (k', v) :: m else (k', v') :: GhostMap.set k v m

/-- The body of `for_each_projection_ghost_and_children_cells` (indices.hpp:68-139) with the callback of `ghost_recursion`
(FV_scheme_assembly.hpp:107-117), for one interval. The order of the children in a combination is that of `childrenOf` (simplification). -/
def projectionRow (n : Nat) (ref : CA) (level : Nat) (c : Call) : Option (List (Int × LinComb K)) :=
  match getIndex (ref.lca level) n c.1 c.2.start, (childrenOf c.1).mapM fun r => getIndex (ref.lca (level + 1)) n r (2 * c.2.start) with
  | some a, some rows => some ((List.range c.2.size).map fun (ii : Nat) =>
      (a + (ii : Int), rows.flatMap fun r => [(r + 2 * (ii : Int), 1 / 2 ^ (n + 1)), (r + 2 * (ii : Int) + 1, 1 / 2 ^ (n + 1))]))
  | _, _ => none

/-- `for_each_projection_ghost_and_children_cells` (indices.hpp:54-142), one level. `cag` is `mesh[cells_and_ghosts]`. -/
def projectionLevel (n : Nat) (ref cag cells : CA) (level : Nat) : Option (List (Int × LinComb K)) :=
  match runSet n (.op .inter (.leaf (.mesh (cag.lca level))) (.leaf (.mesh (cells.lca (level + 1))))) level with
  | none => none
  | some calls => facesOf (projectionRow n ref level) calls

/-- The coefficient of the neighbour at the offset `s` of the parent in the prediction of the cell `q`: the product of the coefficients of
`interp_coeffs` in each direction (FV_scheme_assembly.hpp:876-892, 950-974, 1041-1073). -/
def interpProduct (n order : Nat) (q : Pt) (s : Nat → Int) : K :=
  ((List.range (n + 1)).map fun d => (interpCoeffs order (if isOdd (q d) then (-1 : K) else 1)).getD (s d + order).toNat 0).prod

/-- `mesh().get_index(level, coord)`. -/
def getIndexPt (n : Nat) (ref : CA) (level : Nat) (q : Pt) : Option Int :=
  getIndex (ref.lca level) n (ofPt (n + 1) q).dropLast (q 0)

/-- `prediction_linear_combination(ghost)` (FV_scheme_assembly.hpp:806-822, 871-895, 945-977, 1036-1076): the parent with the coefficient 1, then its neighbours. The
order of the neighbours is that of `offsetsFrom` (simplification). -/
def predictionComb (n order : Nat) (ref : CA) (level : Nat) (q : Pt) : Option (LinComb K) :=
  match getIndexPt n ref (level - 1) (parentPt q),
    ((offsetsFrom n (-(order : Int)) (2 * order + 1)).filter fun s => !(List.range (n + 1)).all fun d => s d == 0).mapM fun s =>
      (getIndexPt n ref (level - 1) fun d => parentPt q d + s d).map fun k => (k, interpProduct n order q s) with
  | some p, some l => some ((p, 1) :: l)
  | _, _ => none

/-- The body of `for_each_cell(mesh, set, f)` (algorithm.hpp:327-358) with the callback of `ghost_recursion` (FV_scheme_assembly.hpp:119-123), for one
interval. -/
def predictionRow (n order : Nat) (ref : CA) (level : Nat) (c : Call) : Option (List (Int × LinComb K)) :=
  match getIndex (ref.lca level) n c.1 c.2.start with
  | none => none
  | some a => (List.range c.2.size).mapM fun (ii : Nat) =>
      (predictionComb n order ref level (toPt (c.1 ++ [c.2.start + (ii : Int)]))).map fun l => (a + (ii : Int), l)

/-- `for_each_prediction_ghost` (indices.hpp:160-175), one level. -/
def predictionLevel (n order : Nat) (ref cag cells : CA) (level : Nat) : Option (List (Int × LinComb K)) :=
  match runSet n (.op .inter (.leaf (.mesh (cag.lca level))) (.leaf (.mesh (cells.lca (level - 1))))) level with
  | none => none
  | some calls => facesOf (predictionRow n order ref level) calls

/-- The map before the loop of substitutions (FV_scheme_assembly.hpp:103-123). -/
def ghostRelations (n order : Nat) (ref cag cells : CA) : Option (GhostMap K) :=
  match overLevels (projectionLevel n ref cag cells) (List.range' cells.minLevel (cells.maxLevel - cells.minLevel)),
    overLevels (predictionLevel n order ref cag cells) (List.range' (cells.minLevel + 1) (cells.maxLevel - cells.minLevel)) with
  | some a, some b => some ((a ++ b).foldl (fun (m : GhostMap K) (e : Int × LinComb K) => m.insert e.1 e.2) [])
  | _, _ => none

/-- `new_linear_comb` (FV_scheme_assembly.hpp:134-153). -/
def substComb (m : GhostMap K) (l : LinComb K) : LinComb K :=
  l.flatMap fun e => match m.find e.1 with
    | none => [e]
    | some l2 => l2.map fun e2 => (e2.1, e.2 * e2.2)

/-- One turn of `while (changes)` (FV_scheme_assembly.hpp:128-156): the map is modified in place, in the order of its keys. -/
def substPass (m : GhostMap K) : GhostMap K × Bool :=
  (m.map Prod.fst).foldl (fun s k => match s.1.find k with
    | none => s
    | some l => (s.1.set k (substComb s.1 l), s.2 || l.any fun e => (s.1.find e.1).isSome)) (m, false)

/-- `while (changes)` (FV_scheme_assembly.hpp:125-157) with at most `fuel` turns. -/
def substLoop : Nat → GhostMap K → Option (GhostMap K)
  | 0, _ => none
  | fuel + 1, m => match substPass m with
    | (m', true) => substLoop fuel m'
    | (m', false) => some m'

/-- `ghost_recursion()` (FV_scheme_assembly.hpp:101-160), with at most `fuel` turns of the loop. -/
def ghostRecursion (n order : Nat) (ref cag cells : CA) (fuel : Nat) : Option (GhostMap K) :=
  match ghostRelations n order ref cag cells with
  | none => none
  | some m => substLoop fuel m

/-! ### the matrix -/

/-- `col_index` and `row_index` (FV_scheme_assembly.hpp:199-230): the position in the vector of the component `j` of the cell `k`, for a field of `size`
components. -/
def dataIndex (soa : Bool) (nCells size : Nat) (shift : Int) (k : Int) (j : Nat) : Int :=
  if size = 1 then shift + k else if soa then shift + (j : Int) * (nCells : Int) + k else shift + k * (size : Int) + (j : Int)

/-- Where the coefficients go: the layout of the field (`field_t::is_soa`), `m_n_cells`, the numbers of components and the shifts. -/
structure MatLayout where
  soa : Bool
  nCells : Nat
  inSize : Nat
  outSize : Nat
  rowShift : Int
  colShift : Int

def MatLayout.row (L : MatLayout) (k : Int) (i : Nat) : Int := dataIndex L.soa L.nCells L.outSize L.rowShift k i

def MatLayout.col (L : MatLayout) (k : Int) (j : Nat) : Int := dataIndex L.soa L.nCells L.inSize L.colShift k j

/-- A call of `MatSetValue`: row, column, value. -/
abbrev MatEntry (K : Type) := Int × Int × K

/-- `MatSetValue(A, row, col, value, ADD_VALUES)`. -/
def matAdd (A : Int → Int → K) (e : MatEntry K) : Int → Int → K := fun r c => if r = e.1 ∧ c = e.2.1 then A r c + e.2.2 else A r c

/-- `cell_coeff(coeffs, c, i, j)`: a coefficient is a linear map, given by its matrix. -/
def cellCoeff {m p : Nat} (a : (Fin m → K) →ₗ[K] (Fin p → K)) (i : Fin p) (j : Fin m) : K := a (Pi.single j 1) i

/-- The callback of the interior interfaces (flux_based_scheme_assembly.hpp:148-194). -/
def faceEntries (L : MatLayout) (rec : GhostMap K) {m p : Nat} (A B : List ((Fin m → K) →ₗ[K] (Fin p → K))) (f : FaceCall) : List (MatEntry K) :=
  (List.finRange p).flatMap fun (i : Fin p) => (List.finRange m).flatMap fun (j : Fin m) => stencilLoop (fun a b (c : MCell) =>
    match rec.find c.index with
    | none => [(L.row f.left.index i, L.col c.index j, cellCoeff a i j), (L.row f.right.index i, L.col c.index j, cellCoeff b i j)]
    | some l => l.flatMap fun e => [(L.row f.left.index i, L.col e.1 j, cellCoeff a i j * e.2), (L.row f.right.index i, L.col e.1 j, cellCoeff b i j * e.2)])
    A B f.comput

/-- The callback of the boundary interfaces (flux_based_scheme_assembly.hpp:197-216): no elimination. -/
def bdryEntries (L : MatLayout) {m p : Nat} (A : List ((Fin m → K) →ₗ[K] (Fin p → K))) (f : BdryCall) : List (MatEntry K) :=
  (List.finRange p).flatMap fun (i : Fin p) => (List.finRange m).flatMap fun (j : Fin m) => stencilLoop (fun a _ (c : MCell) =>
    [(L.row f.cell.index i, L.col c.index j, cellCoeff a i j)]) A A f.comput

/-- Same level (flux_based_scheme__lin_hom.hpp:80-98, flux_based_scheme__lin_het.hpp:82-101). `C level cells` are the coefficients of the flux: they depend on the
level of the interface for a homogeneous scheme, on the cells of the stencil for a heterogeneous one. -/
def asmSame (n : Nat) (h0 : K) (L : MatLayout) (rec : GhostMap K) {m p : Nat} (ref cells : CA) (dir : Nat → Int) (S : List (Nat → Int))
    (C : Nat → List MCell → List ((Fin m → K) →ₗ[K] (Fin p → K))) (level : Nat) : Option (List (MatEntry K)) :=
  (sameLevelFaces n ref cells level dir S).map fun fs => fs.flatMap fun f =>
    let h := cellLength h0 level
    let l := contributionL n (C level f.comput) h h
    faceEntries L rec l (negL l) f

/-- Level jumps (flux_based_scheme__lin_hom.hpp:100-144, flux_based_scheme__lin_het.hpp:104-151). -/
def asmJump (n : Nat) (h0 : K) (L : MatLayout) (rec : GhostMap K) {m p : Nat} (ref cells : CA) (maxL : Nat) (dir : Nat → Int) (S : List (Nat → Int))
    (C : Nat → List MCell → List ((Fin m → K) →ₗ[K] (Fin p → K))) (level : Nat) : Option (List (MatEntry K)) :=
  match jumpFaces n ref cells maxL level dir S, jumpFacesOpp n ref cells maxL level dir S with
  | some a, some b =>
    let h := cellLength h0 level
    let h1 := cellLength h0 (level + 1)
    some ((a.flatMap fun f => faceEntries L rec (contributionL n (C (level + 1) f.comput) h1 h) (contributionL n (negL (C (level + 1) f.comput)) h1 h1) f) ++
      b.flatMap fun f => faceEntries L rec (contributionL n (C (level + 1) f.comput) h1 h1) (contributionL n (negL (C (level + 1) f.comput)) h1 h) f)
  | _, _ => none

/-- The boundary (flux_based_scheme__lin_hom.hpp:159-196, flux_based_scheme__lin_het.hpp:167-205), one level. -/
def asmBdry (n : Nat) (h0 : K) (L : MatLayout) {m p : Nat} (ref : CA) (sub : LCA) (cells : CA) (dir : Nat → Int) (S : List (Nat → Int))
    (C : Nat → List MCell → List ((Fin m → K) →ₗ[K] (Fin p → K))) (level : Nat) : Option (List (MatEntry K)) :=
  match bdryFaces n ref sub cells dir S level, bdryFacesOpp n ref sub cells dir S level with
  | some a, some b =>
    let h := cellLength h0 level
    some ((a.flatMap fun f => bdryEntries L (contributionL n (C level f.comput) h h) f) ++
      b.flatMap fun f => bdryEntries L (contributionL n (negL (C level f.comput)) h h) f)
  | _, _ => none

/-- The interior interfaces of one direction. -/
def asmInterior (n : Nat) (h0 : K) (L : MatLayout) (rec : GhostMap K) {m p : Nat} (ref cells : CA) (maxL : Nat) (dir : Nat → Int) (S : List (Nat → Int))
    (C : Nat → List MCell → List ((Fin m → K) →ₗ[K] (Fin p → K))) : Option (List (MatEntry K)) :=
  match overLevels (asmSame n h0 L rec ref cells dir S C) cells.levels,
    overLevels (asmJump n h0 L rec ref cells maxL dir S C) (List.range' cells.minLevel (cells.maxLevel - cells.minLevel)) with
  | some a, some b => some (a ++ b)
  | _, _ => none

/-- `assemble_scheme(A)` (flux_based_scheme_assembly.hpp:135-217): the calls of `MatSetValue`, in order. The interior interfaces of all the directions, then the
boundary interfaces. -/
def assembleScheme (n : Nat) (h0 : K) (L : MatLayout) (rec : GhostMap K) {m p : Nat} (ref : CA) (sub : LCA) (cells : CA) (maxL : Nat) (bdry : Bool)
    (S : Nat → List (Nat → Int)) (C : Nat → Nat → List MCell → List ((Fin m → K) →ₗ[K] (Fin p → K))) : Option (List (MatEntry K)) :=
  match overLevels (fun d => asmInterior n h0 L rec ref cells maxL (cartesianDir d) (S d) (C d)) (List.range (n + 1)),
    (if bdry then overLevels (fun d => overLevels (asmBdry n h0 L ref sub cells (cartesianDir d) (S d) (C d)) cells.usedLevels) (List.range (n + 1)) else some []) with
  | some a, some b => some (a ++ b)
  | _, _ => none

/-- The matrix after `assemble_scheme` on a matrix of zeros. -/
def schemeMatrix (E : List (MatEntry K)) : Int → Int → K := E.foldl matAdd fun _ _ => 0

/-- The coefficients of a homogeneous scheme. -/
def LinDef.flux {U V : Type} [AddCommGroup U] [Module K U] [AddCommGroup V] [Module K V] (h0 : K) (ld : LinDef K U V) :
    Nat → Nat → List MCell → List (U →ₗ[K] V) := fun d level _ => ld.coeffs d (cellLength h0 level)

/-- The coefficients of a heterogeneous scheme. -/
def HetDef.flux {U V : Type} [AddCommGroup U] [Module K U] [AddCommGroup V] [Module K V] (hd : HetDef K U V) :
    Nat → Nat → List MCell → List (U →ₗ[K] V) := fun d _ cells => hd.coeffs d cells

end

end Samurai
