/-
Model of the linear homogeneous flux-based schemes: `schemes/fv/flux_based/flux_based_scheme__lin_hom.hpp` and
`explicit_flux_based_scheme__lin_hom.hpp`, with the loops on interfaces in their `Get::Intervals` variant (`interface.hpp`).
A coefficient is a linear map from the values of the input field to those of the output field: the loops on the components
(`field_i`, `field_j`, `cell_coeff`) are the application of its matrix. Exact arithmetic.
-/
import Verif.Model.Flux
import Mathlib.Algebra.Module.LinearMap.Basic

namespace Samurai

/-- The arguments of the callback with `Get::Intervals`: the cells at the start of the interval, the cells of the stencil at the start of the interval and the
size of the interval. -/
structure RowCall where
  left : MCell
  right : MCell
  comput : List MCell
  size : Nat

/-- `for_each_interior_interface__same_level<..., Get::Intervals>` (interface.hpp:42-56) on one interval. -/
def sameLevelRowCall (n : Nat) (ref : CA) (level : Nat) (dir : Nat → Int) (S : List (Nat → Int)) (c : Call) : Option RowCall :=
  match stencilInit n ref (inOutStencil dir) level c, stencilInit n ref S level c with
  | some [a, b], some l => some ⟨a, b, l, c.2.size⟩
  | _, _ => none

/-- `for_each_interior_interface__level_jump_direction<..., Get::Intervals>` (interface.hpp:120-134) on one fine interval. -/
def jumpRowCall (n : Nat) (ref : CA) (level : Nat) (dir : Nat → Int) (S : List (Nat → Int)) (c : Call) : Option RowCall :=
  match stencilFind n S dir, stencilInit n ref S (level + 1) c with
  | some k, some l =>
    match jumpInit n ref level l k c with
    | none => none
    | some j => some ⟨j.coarse, j.fine, l, c.2.size⟩
  | _, _ => none

/-- `for_each_interior_interface__level_jump_opposite_direction<..., Get::Intervals>` (interface.hpp:203-217) on one fine interval. -/
def jumpRowCallOpp (n : Nat) (ref : CA) (level : Nat) (dir : Nat → Int) (S : List (Nat → Int)) (c : Call) : Option RowCall :=
  match stencilFind n (minusStencil dir S) (fun d => - dir d), stencilInit n ref (minusStencil dir S) (level + 1) c with
  | some k, some l =>
    match jumpInit n ref level l k c with
    | none => none
    | some j => some ⟨j.fine, j.coarse, l, c.2.size⟩
  | _, _ => none

section
variable {K U V : Type} [Field K] [AddCommGroup U] [Module K U] [AddCommGroup V] [Module K V]

/-- `NormalFluxDefinition` of a linear homogeneous scheme (flux_definition.hpp:166-199): the stencil and, for each length of a cell, one coefficient per
cell of the stencil. -/
structure LinDef (K U V : Type) [Field K] [AddCommGroup U] [Module K U] [AddCommGroup V] [Module K V] where
  stencil : Nat → List (Nat → Int)
  coeffs : Nat → K → List (U →ₗ[K] V)

/-- `contribution(flux_coeffs, h_face, h_cell)` (flux_based_scheme__lin_hom.hpp:60-65). -/
def contributionL (n : Nat) (A : List (U →ₗ[K] V)) (hf hc : K) : List (U →ₗ[K] V) := A.map fun a => (hf ^ n / hc ^ (n + 1)) • a

/-- `-flux_coeffs`. -/
def negL (A : List (U →ₗ[K] V)) : List (U →ₗ[K] V) := A.map fun a => - a

/-- `for (ii = 0; ii < size; ++ii) output[start + ii] += a * input[comput + ii]` (explicit_flux_based_scheme__lin_hom.hpp:69-78). -/
def fineLoop (u : Int → U) (a : U →ₗ[K] V) (start comput : Int) (size : Nat) : List (Upd V) :=
  (List.range size).map fun (ii : Nat) => (start + (ii : Int), a (u (comput + (ii : Int))))

/-- The loop on the coarse cells, two fine cells for each (explicit_flux_based_scheme__lin_hom.hpp:86-91). -/
def coarseLoop (u : Int → U) (a : U →ₗ[K] V) (start comput : Int) (size : Nat) : List (Upd V) :=
  (List.range (size / 2)).map fun (ii : Nat) =>
    (start + (ii : Int), a (u (comput + 2 * (ii : Int))) + a (u (comput + 2 * (ii : Int) + 1)))

/-- The body of the loop on the stencil in `_apply_contribution_in_sequential_context` (explicit_flux_based_scheme__lin_hom.hpp:57-113), for one cell of
the stencil. -/
def seqBody (u : Int → U) (r : RowCall) (a b : U →ₗ[K] V) (m : MCell) : List (Upd V) :=
  if r.left.level = r.right.level ∨ r.size = 1 then
    fineLoop u a r.left.index m.index r.size ++ fineLoop u b r.right.index m.index r.size
  else if r.left.level < r.right.level then
    coarseLoop u a r.left.index m.index r.size ++ fineLoop u b r.right.index m.index r.size
  else
    fineLoop u a r.left.index m.index r.size ++ coarseLoop u b r.right.index m.index r.size

/-- The loop on the cells of the stencil: the coefficients of the left cell, of the right cell and the cells, in parallel. -/
def stencilLoop {α β γ δ : Type} (f : α → β → γ → List δ) : List α → List β → List γ → List δ
  | a :: A, b :: B, c :: C => f a b c ++ stencilLoop f A B C
  | _, _, _ => []

/-- `_apply_contribution_in_sequential_context` (explicit_flux_based_scheme__lin_hom.hpp:38-118). The assertion that the fine interval of a level jump is
even is checked. -/
def seqTask (u : Int → U) (A B : List (U →ₗ[K] V)) (r : RowCall) : Option (List (Upd V)) :=
  if r.left.level ≠ r.right.level ∧ r.size ≠ 1 ∧ r.size % 2 = 1 then none
  else some (stencilLoop (seqBody u r) A B r.comput)

/-- `left_contributions[ii]` or `right_contributions[ii]` after the loop on the stencil (explicit_flux_based_scheme__lin_hom.hpp:148-210): one fine cell
(`pair = false`) or two fine cells for one coarse cell. -/
def localSum (u : Int → U) (pair : Bool) : List (U →ₗ[K] V) → List MCell → Nat → V
  | a :: A, m :: C, ii =>
    (if pair then a (u (m.index + 2 * (ii : Int))) + a (u (m.index + 2 * (ii : Int) + 1)) else a (u (m.index + (ii : Int)))) + localSum u pair A C ii
  | _, _, _ => 0

/-- `_apply_contribution_in_parallel_context` (explicit_flux_based_scheme__lin_hom.hpp:120-228): the contributions are summed in local vectors,
then added to the output. -/
def parTask (u : Int → U) (A B : List (U →ₗ[K] V)) (r : RowCall) : Option (List (Upd V)) :=
  if r.left.level ≠ r.right.level ∧ r.size ≠ 1 ∧ r.size % 2 = 1 then none
  else
    let nLeft := if r.size = 1 ∨ r.left.level ≥ r.right.level then r.size else r.size / 2
    let nRight := if r.size = 1 ∨ r.left.level ≤ r.right.level then r.size else r.size / 2
    let same : Bool := decide (r.left.level = r.right.level ∨ r.size = 1)
    some (((List.range nLeft).map fun (ii : Nat) => (r.left.index + (ii : Int), localSum u (!same && decide (r.left.level < r.right.level)) A r.comput ii)) ++
      (List.range nRight).map fun (ii : Nat) => (r.right.index + (ii : Int), localSum u (!same && !decide (r.left.level < r.right.level)) B r.comput ii))

/-- The callback of the interior loops (explicit_flux_based_scheme__lin_hom.hpp:246-268). -/
def linTask (par : Bool) (u : Int → U) (A B : List (U →ₗ[K] V)) (r : Option RowCall) : Option (List (Upd V)) :=
  match r with
  | none => none
  | some r => if par then parTask u A B r else seqTask u A B r

/-- Same level (flux_based_scheme__lin_hom.hpp:80-98). The right coefficients are the opposite of the left ones. -/
def linSameRegion (n : Nat) (h0 : K) (par : Bool) (u : Int → U) (ref cells : CA) (dir : Nat → Int) (S : List (Nat → Int)) (C : K → List (U →ₗ[K] V))
    (level : Nat) : Option (List (Region V)) :=
  let h := cellLength h0 level
  let L := contributionL n (C h) h h
  match runDefault n (.op .inter (.leaf (.mesh (cells.lca level))) (.leaf (.translate (.mesh (cells.lca level)) fun d => - dir d))) with
  | none => none
  | some calls =>
    (rowsOf (fun c => linTask par u L (negL L) (sameLevelRowCall n ref level dir S c)) calls).map fun t => [⟨par, t⟩]

/-- Level jumps (flux_based_scheme__lin_hom.hpp:100-144). -/
def linJumpRegions (n : Nat) (h0 : K) (par : Bool) (u : Int → U) (ref cells : CA) (maxL : Nat) (dir : Nat → Int) (S : List (Nat → Int))
    (C : K → List (U →ₗ[K] V)) (level : Nat) : Option (List (Region V)) :=
  let h := cellLength h0 level
  let h1 := cellLength h0 (level + 1)
  if level ≥ maxL then some [⟨par, []⟩, ⟨par, []⟩]
  else
    match runSet n (.op .inter (.leaf (.mesh (cells.lca level)))
        (.leaf (.translate (.mesh (cells.lca (level + 1))) fun d => - dir d))) (level + 1),
      runSet n (.op .inter (.leaf (.mesh (cells.lca level)))
        (.leaf (.translate (.mesh (cells.lca (level + 1))) dir))) (level + 1) with
    | some calls, some calls' =>
      match rowsOf (fun c => linTask par u (contributionL n (C h1) h1 h) (contributionL n (negL (C h1)) h1 h1) (jumpRowCall n ref level dir S c)) calls,
        rowsOf (fun c => linTask par u (contributionL n (C h1) h1 h1) (contributionL n (negL (C h1)) h1 h) (jumpRowCallOpp n ref level dir S c)) calls' with
      | some a, some b => some [⟨par, a⟩, ⟨par, b⟩]
      | _, _ => none
    | _, _ => none

/-- `for_each_interior_interface_and_coeffs(d, field, f)` (flux_based_scheme__lin_hom.hpp:70-145). -/
def linInteriorRegions (n : Nat) (h0 : K) (par : Bool) (u : Int → U) (ref cells : CA) (maxL : Nat) (dir : Nat → Int) (S : List (Nat → Int))
    (C : K → List (U →ₗ[K] V)) : Option (List (Region V)) :=
  match overLevels (linSameRegion n h0 par u ref cells dir S C) cells.levels,
    overLevels (linJumpRegions n h0 par u ref cells maxL dir S C) (List.range' cells.minLevel (cells.maxLevel - cells.minLevel)) with
  | some a, some b => some (a ++ b)
  | _, _ => none

/-- The callback of the boundary loops (explicit_flux_based_scheme__lin_hom.hpp:276-312) on one interval. -/
def linBdryTask (n : Nat) (u : Int → U) (A : List (U →ₗ[K] V)) (ref : CA) (level : Nat) (dir : Nat → Int) (S : List (Nat → Int)) (c : Call) :
    Option (List (Upd V)) :=
  match stencilInit n ref (inOutStencil dir) level c, stencilInit n ref S level c with
  | some [a, _], some l => some (stencilLoop (fun (x : U →ₗ[K] V) (_ : U →ₗ[K] V) (m : MCell) => fineLoop u x a.index m.index c.2.size) A A l)
  | _, _ => none

/-- `for_each_boundary_interface_and_coeffs(d, field, f)` (flux_based_scheme__lin_hom.hpp:159-196), for one level. The updates are not atomic. -/
def linBdryRegions (n : Nat) (h0 : K) (u : Int → U) (ref : CA) (sub : LCA) (cells : CA) (dir : Nat → Int) (S : List (Nat → Int))
    (C : K → List (U →ₗ[K] V)) (level : Nat) : Option (List (Region V)) :=
  let h := cellLength h0 level
  match boundarySet n sub cells level dir, boundarySet n sub cells level (fun d => - dir d) with
  | some calls, some calls' =>
    match rowsOf (linBdryTask n u (contributionL n (C h) h h) ref level dir S) calls,
      rowsOf (linBdryTask n u (contributionL n (negL (C h)) h h) ref level (fun d => - dir d) (minusStencil dir S)) calls' with
    | some a, some b => some [⟨false, a⟩, ⟨false, b⟩]
    | _, _ => none
  | _, _ => none

/-- `Explicit<FluxBasedScheme>::apply(d, output_field, input_field)` (explicit_flux_based_scheme__lin_hom.hpp:232-314). -/
def linDirectionRegions (n : Nat) (h0 : K) (par : Bool) (u : Int → U) (ref : CA) (sub : LCA) (cells : CA) (maxL : Nat) (bdry : Bool) (ld : LinDef K U V)
    (d : Nat) (dir : Nat → Int) : Option (List (Region V)) :=
  match linInteriorRegions n h0 par u ref cells maxL dir (ld.stencil d) (ld.coeffs d),
    (if bdry then overLevels (linBdryRegions n h0 u ref sub cells dir (ld.stencil d) (ld.coeffs d)) cells.usedLevels else some []) with
  | some a, some b => some (a ++ b)
  | _, _ => none

/-- All the directions (explicit_FV_scheme.hpp:70-76). -/
def linSchemeRegions (n : Nat) (h0 : K) (par : Bool) (u : Int → U) (ref : CA) (sub : LCA) (cells : CA) (maxL : Nat) (bdry : Bool) (ld : LinDef K U V) :
    Option (List (Region V)) :=
  overLevels (fun d => linDirectionRegions n h0 par u ref sub cells maxL bdry ld d (cartesianDir d)) (List.range (n + 1))

/-- `apply_to(input_field)` with the regions executed one task after the other; `par` is `omp_get_max_threads() > 1`. -/
def linApplyTo (n : Nat) (h0 : K) (par : Bool) (u : Int → U) (ref : CA) (sub : LCA) (cells : CA) (maxL : Nat) (bdry : Bool) (ld : LinDef K U V) :
    Option (Int → V) :=
  (linSchemeRegions n h0 par u ref sub cells maxL bdry ld).map fun rs => rs.foldl Region.run fun _ => 0

end

end Samurai
