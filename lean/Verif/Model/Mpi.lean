/-
Model of the exchanges between MPI processes: the pattern of `update_mesh_neighbour` (`include/samurai/mesh.hpp`), `update_ghost_subdomains` and
`update_tag_subdomains` (`include/samurai/algorithm/update.hpp`). Each of them is one round: non-blocking sends to the neighbours, then blocking
receives from the same neighbours, then `mpi::wait_all`. The code between two exchanges is local work.
-/

namespace Samurai

/-- One round, in all the processes (the code is the same, its data are not; the first argument is the rank). `work` is the local code before the
exchange, `peers` the neighbours the process exchanges with, in the order of `mpi_neighbourhood()`, `payload` the message for a neighbour
(`world.isend(neighbour.rank, neighbour.rank, ...)`, update.hpp:187-202, 269-299, mesh.hpp:562-568), `use` what is done with the message of a
neighbour (`world.recv(neighbour.rank, world.rank(), ...)`, update.hpp:205-229, 302-360, mesh.hpp:570-573). `none` is undefined behaviour or an
exception. -/
structure MpiRound (σ μ : Type) where
  work : Nat → σ → Option σ
  peers : Nat → σ → List Nat
  payload : Nat → Nat → σ → Option μ
  use : Nat → Nat → μ → σ → Option σ

/-- A process: its memory, the rounds it has to do (the current one first), whether the current one has begun, the neighbours it has still to send
to and to receive from in this round. -/
structure MpiProc (σ μ : Type) where
  loc : σ
  todo : List (MpiRound σ μ)
  busy : Bool := false
  sends : List Nat := []
  recvs : List Nat := []

/-- All the processes, and the messages that were sent and not received: `net p q` is the queue from `p` to `q`. All the messages from `p` to `q` have
the same tag (the rank of `q`), so they are received in the order of the sends (MPI: non-overtaking). -/
structure MpiSys (σ μ : Type) where
  proc : Nat → MpiProc σ μ
  net : Nat → Nat → List μ

namespace MpiSys
variable {σ μ : Type}

/-- Overwrite a process. -/
def setProc (x : MpiSys σ μ) (p : Nat) (a : MpiProc σ μ) : MpiSys σ μ := { x with proc := fun p' => if p' = p then a else x.proc p' }

/-- Overwrite a queue. -/
def setNet (x : MpiSys σ μ) (p q : Nat) (l : List μ) : MpiSys σ μ :=
  { x with net := fun p' q' => if p' = p ∧ q' = q then l else x.net p' q' }

end MpiSys

/-- One step of one process among `size`. The processes run at any speed: any process that can do a step may do it. If `strict`, `wait_all` returns
only when the messages of the process have been received (a send without buffer); otherwise it may return at any time (buffered sends). The message
is computed by the step that sends it: the code before `wait_all` does not change what was sent (`to_send` is a copy, the mesh is not changed). -/
inductive MpiStep {σ μ : Type} (size : Nat) (strict : Bool) : MpiSys σ μ → MpiSys σ μ → Prop
  | begin (x : MpiSys σ μ) (p : Nat) (R : MpiRound σ μ) (rest : List (MpiRound σ μ)) (s : σ) (hp : p < size)
      (ht : (x.proc p).todo = R :: rest) (hb : (x.proc p).busy = false) (hw : R.work p (x.proc p).loc = some s) :
      MpiStep size strict x
        (x.setProc p { loc := s, todo := R :: rest, busy := true, sends := R.peers p s, recvs := R.peers p s })
  | send (x : MpiSys σ μ) (p q : Nat) (R : MpiRound σ μ) (rest : List (MpiRound σ μ)) (l : List Nat) (m : μ) (hp : p < size)
      (ht : (x.proc p).todo = R :: rest) (hb : (x.proc p).busy = true) (hs : (x.proc p).sends = q :: l)
      (hm : R.payload p q (x.proc p).loc = some m) :
      MpiStep size strict x ((x.setProc p { x.proc p with sends := l }).setNet p q (x.net p q ++ [m]))
  | recv (x : MpiSys σ μ) (p q : Nat) (R : MpiRound σ μ) (rest : List (MpiRound σ μ)) (l : List Nat) (m : μ) (ms : List μ) (s : σ) (hp : p < size)
      (ht : (x.proc p).todo = R :: rest) (hb : (x.proc p).busy = true) (hs : (x.proc p).sends = []) (hr : (x.proc p).recvs = q :: l)
      (hn : x.net q p = m :: ms) (hu : R.use p q m (x.proc p).loc = some s) :
      MpiStep size strict x ((x.setProc p { x.proc p with loc := s, recvs := l }).setNet q p ms)
  | wait (x : MpiSys σ μ) (p : Nat) (R : MpiRound σ μ) (rest : List (MpiRound σ μ)) (hp : p < size)
      (ht : (x.proc p).todo = R :: rest) (hb : (x.proc p).busy = true) (hs : (x.proc p).sends = []) (hr : (x.proc p).recvs = [])
      (hw : strict = true → ∀ q, x.net p q = []) :
      MpiStep size strict x (x.setProc p { x.proc p with todo := rest, busy := false })

/-- The beginning: every process has its memory, all the rounds to do, and nothing is in the network. -/
def MpiSys.start {σ μ : Type} (rounds : List (MpiRound σ μ)) (s : Nat → σ) : MpiSys σ μ where
  proc := fun p => { loc := s p, todo := rounds }
  net := fun _ _ => []

end Samurai
