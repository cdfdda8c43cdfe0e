/-
Vocabulary for the exchanges between processes: what a round computes when all the processes do it together, and executions.
-/
import Verif.Model.Mpi

namespace Samurai

/-- A round done by all the processes together, from the memories `s` to the memories `s'`: every process works and finds its neighbours `P`; the
neighbours of `p` are other processes of the communicator, and `q` is a neighbour of `p` when `p` is a neighbour of `q`; each computes its messages `M`;
each uses the messages it was sent, in the order of its neighbours. -/
structure TogetherRound {σ μ : Type} (size : Nat) (R : MpiRound σ μ) (s : Nat → σ) (mid : Nat → σ) (M : Nat → Nat → μ) (s' : Nat → σ) : Prop where
  work : ∀ p < size, R.work p (s p) = some (mid p)
  nodup : ∀ p < size, (R.peers p (mid p)).Nodup
  lt : ∀ p < size, ∀ q ∈ R.peers p (mid p), q < size
  symm : ∀ p < size, ∀ q < size, q ∈ R.peers p (mid p) → p ∈ R.peers q (mid q)
  payload : ∀ p < size, ∀ q ∈ R.peers p (mid p), R.payload p q (mid p) = some (M p q)
  use : ∀ p < size, (R.peers p (mid p)).foldlM (fun a q => R.use p q (M q p) a) (mid p) = some (s' p)

/-- All the rounds done together, one after the other. -/
inductive Together {σ μ : Type} (size : Nat) : List (MpiRound σ μ) → (Nat → σ) → (Nat → σ) → Prop
  | nil (s : Nat → σ) : Together size [] s s
  | cons (R : MpiRound σ μ) (rest : List (MpiRound σ μ)) (s : Nat → σ) (mid : Nat → σ) (M : Nat → Nat → μ) (s1 s2 : Nat → σ)
      (h : TogetherRound size R s mid M s1) (ht : Together size rest s1 s2) : Together size (R :: rest) s s2

/-- An execution of `k` steps. -/
inductive MpiRun {σ μ : Type} (size : Nat) (strict : Bool) : Nat → MpiSys σ μ → MpiSys σ μ → Prop
  | refl (x : MpiSys σ μ) : MpiRun size strict 0 x x
  | step (k : Nat) (x y z : MpiSys σ μ) (h : MpiRun size strict k x y) (hs : MpiStep size strict y z) : MpiRun size strict (k + 1) x z

/-- Every process has done all its rounds. -/
def MpiSys.Finished {σ μ : Type} (size : Nat) (x : MpiSys σ μ) : Prop := ∀ p < size, (x.proc p).todo = []

end Samurai
