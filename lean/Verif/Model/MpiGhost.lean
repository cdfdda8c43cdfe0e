/-
Model of the exchanges of meshes, of ghost values and of tags between MPI processes: `update_mesh_neighbour` (`include/samurai/mesh.hpp`),
`update_ghost_subdomains` and `update_tag_subdomains` (`include/samurai/algorithm/update.hpp`), as rounds of `Model/Mpi.lean`. `n` is `dim - 1`.
-/
import Verif.Model.Mpi
import Verif.Model.GhostUpdate

namespace Samurai

/-- What the exchanges use of a mesh: `mesh[reference]` and `mesh.subdomain()`. Simplification: the rest of the mesh is serialized too. -/
structure MpiMesh where
  ref : CA
  sub : LCA

/-- The memory of a process: its mesh, its copies of the meshes of the others (`mpi_neighbourhood()`, by rank), and a field of `m` components:
`u i k` is the component `k` of the cell number `i`. -/
structure MpiLocal (K : Type) where
  mesh : MpiMesh
  copy : Nat → MpiMesh
  u : Int → Nat → K

/-- A message: a mesh, or the values `to_send[i_neigh]`. -/
inductive MpiMsg (K : Type)
  | mesh (M : MpiMesh)
  | values (l : List K)

/-- The ranks in `m_mpi_neighbourhood` (mesh.hpp:736-743): all the other processes. -/
def mpiOthers (size p : Nat) : List Nat := (List.range size).filter fun q => decide (q ≠ p)

section
variable {K : Type}

/-- `update_mesh_neighbour()` (mesh.hpp:555-577). Receiving something else than a mesh is an exception. -/
def updateMeshNeighbour (size : Nat) : MpiRound (MpiLocal K) (MpiMsg K) where
  work := fun _ s => some s
  peers := fun p _ => mpiOthers size p
  payload := fun _ _ s => some (.mesh s.mesh)
  use := fun _ q m s => match m with
    | .mesh M => some { s with copy := fun q' => if q' = q then M else s.copy q' }
    | .values _ => none

/-- The processes with which values of `level` are exchanged (update.hpp:183, 207, 271, 304): both references have cells at this level. -/
def mpiPeers (size level p : Nat) (s : MpiLocal K) : List Nat :=
  (mpiOthers size p).filter fun q => !(s.mesh.ref.lca level).isEmpty && !((s.copy q).ref.lca level).isEmpty

/-- `intersection(a, b, s).on(level)` (update.hpp:185-188, 213-216, 275-278, 287-290, 313-316, 336-339): the calls of the functor. -/
def mpiInterface (n level : Nat) (a b : CA) (s : LCA) : Option (List Call) :=
  runSet n (.op .inter (.leaf (.mesh (a.lca level))) (.op .inter (.leaf (.mesh (b.lca level))) (.leaf (.mesh s)))) level

/-- `std::copy(field(level, i, index).begin(), field(level, i, index).end(), std::back_inserter(to_send))` (update.hpp:192, 282, 294): the values of
the row, cell by cell, the `m` components of a cell together (the layout by default). -/
def sendRow (n m : Nat) (ref : CA) (level : Nat) (u : Int → Nat → K) (buf : List K) (c : Call) : Option (List K) :=
  (fieldInterval n ref level c.1 c.2).map fun r =>
    buf ++ (List.range ((c.2.stop - c.2.start).toNat * m)).map fun k => u (r.index + c.2.start + ((k / m : Nat) : Int)) (k % m)

/-- `std::copy(to_recv.begin() + count, to_recv.begin() + count + i.size(), ...)` into the row, then `count += i.size()` (update.hpp:220-224,
320-334, 343-357): `i.size()` values are read and put in the first entries of the row, in the order of `sendRow`; `comb` makes the new value from
the old one and the received one. Reading after the end of `to_recv` is undefined behaviour. -/
def recvRow (n m : Nat) (comb : K → K → K) (ref : CA) (level : Nat) (buf : List K) (s : Nat × (Int → Nat → K)) (c : Call) :
    Option (Nat × (Int → Nat → K)) :=
  match fieldInterval n ref level c.1 c.2 with
  | none => none
  | some r =>
    let size := (c.2.stop - c.2.start).toNat
    if s.1 + size ≤ buf.length then
      some (s.1 + size, fun j k =>
        let e := (j - (r.index + c.2.start)).toNat * m + k
        if r.index + c.2.start ≤ j ∧ k < m ∧ e < size then
          match buf[s.1 + e]? with
          | some v => comb (s.2 j k) v
          | none => s.2 j k
        else s.2 j k)
    else none

/-- The values sent for the rows `calls`. -/
def sendRows (n m : Nat) (ref : CA) (level : Nat) (u : Int → Nat → K) (calls : Option (List Call)) : Option (MpiMsg K) :=
  match calls with
  | none => none
  | some calls => (calls.foldlM (sendRow n m ref level u) []).map .values

/-- The values received into the rows `calls`, from `count = 0`. -/
def recvRows (n m : Nat) (comb : K → K → K) (level : Nat) (calls : Option (List Call)) (msg : MpiMsg K) (s : MpiLocal K) : Option (MpiLocal K) :=
  match calls, msg with
  | some calls, .values buf => (calls.foldlM (recvRow n m comb s.mesh.ref level buf) (0, s.u)).map fun t => { s with u := t.2 }
  | _, _ => none

/-- `update_ghost_subdomains(level, field)` (update.hpp:166-231): a process sends the values of the cells of its subdomain, and overwrites the cells
of the subdomain of the neighbour. -/
def updateGhostSubdomains (n m size level : Nat) : MpiRound (MpiLocal K) (MpiMsg K) where
  work := fun _ s => some s
  peers := fun p s => mpiPeers size level p s
  payload := fun _ q s => sendRows n m s.mesh.ref level s.u (mpiInterface n level s.mesh.ref (s.copy q).ref s.mesh.sub)
  use := fun _ q msg s => recvRows n m (fun _ v => v) level (mpiInterface n level (s.copy q).ref s.mesh.ref (s.copy q).sub) msg s

/-- `update_tag_subdomains<out>(level, tag, erase)` (update.hpp:255-363): `or` is `|=`. -/
def updateTagSubdomains (n size : Nat) (or : K → K → K) (out erase : Bool) (level : Nat) : MpiRound (MpiLocal K) (MpiMsg K) where
  work := fun _ s => some s
  peers := fun p s => mpiPeers size level p s
  payload := fun _ q s => sendRows n 1 s.mesh.ref level s.u (mpiInterface n level s.mesh.ref (s.copy q).ref (if out then s.mesh.sub else (s.copy q).sub))
  use := fun _ q msg s => recvRows n 1 (if erase then fun _ v => v else or) level
    (mpiInterface n level s.mesh.ref (s.copy q).ref (if out then (s.copy q).sub else s.mesh.sub)) msg s

/-- `update_ghost_subdomains(field)` (update.hpp:240-253) after `update_mesh_neighbour()`: a round for each level between the smallest and the
greatest level of all the processes (`all_reduce`: the same levels for all). -/
def ghostProgram (n m size lo hi : Nat) : List (MpiRound (MpiLocal K) (MpiMsg K)) :=
  updateMeshNeighbour size :: (List.range' lo (hi + 1 - lo)).map (updateGhostSubdomains n m size)

end
end Samurai
