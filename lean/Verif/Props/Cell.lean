/-
C46: geometry of the cells.
-/
import Verif.Lemmas.Cell
import Mathlib.Data.Rat.Defs

namespace Samurai

variable {R : Type} [Field R] [LinearOrder R] [IsStrictOrderedRing R]

/-- C46: the cell of level `l` and coordinates `p` has, `k` levels down, `2^(k dim)` descendants; a point is in the cell exactly when it is in one of them, and then in one only; and the
centre of the cell is the mean of their centres. -/
theorem C46_tiling {dim : Nat} (origin : Fin dim → R) (scaling : R) (hs : 0 < scaling) (l k : Nat) (p : Fin dim → Int) (idx : Int) :
    ∃ D : Finset (Fin dim → Int), (∀ q, q ∈ D ↔ Desc k p q) ∧ D.card = 2 ^ (k * dim) ∧
      (∀ x, InCube origin scaling l p x ↔ ∃! q, q ∈ D ∧ InCube origin scaling (l + k) q x) ∧
      ∀ i, (Cell.mk' origin scaling l p idx).center i = (∑ q ∈ D, (Cell.mk' origin scaling (l + k) q idx).center i) / (D.card : R) := by
  refine ⟨descSet k p, fun q => mem_descSet, card_descSet k p, fun x => ?_, fun i => ?_⟩
  · constructor
    · intro h
      choose q h1 h2 using fun i => (split1 hs (k := k)).1 (h i)
      refine ⟨q, ⟨mem_descSet.2 h1, h2⟩, fun q' ⟨_, h'⟩ => ?_⟩
      funext i
      exact cube_unique1 (by positivity) (h' i) (h2 i)
    · rintro ⟨q, ⟨h1, h2⟩, -⟩ i
      exact (split1 hs (k := k)).2 ⟨q i, mem_descSet.1 h1 i, h2 i⟩
  · have hc : ((descSet k p).card : R) ≠ 0 := by
      rw [card_descSet]; positivity
    have e : ∀ q : Fin dim → Int, (Cell.mk' origin scaling (l + k) q idx).center i = origin i + scaling / 2 ^ (l + k) * ((q i : R) + 1 / 2) := fun q => rfl
    simp only [e]
    rw [Finset.sum_add_distrib, ← Finset.mul_sum, sum_desc, Finset.sum_const, nsmul_eq_mul]
    show origin i + scaling / 2 ^ l * ((p i : R) + 1 / 2) = _
    rw [pow_add]
    field_simp

/-- C46: the corner and the centre of a cell are those of its cube: the corner is the low end, the centre lies at half a side from it in each direction, and the points of the
cube are those at less than half a side from the centre (or on the low side). -/
theorem C46_corner {dim : Nat} (origin : Fin dim → R) (scaling : R) (l : Nat) (p : Fin dim → Int) (idx : Int) (x : Fin dim → R) :
    (InCube origin scaling l p x ↔ ∀ i, (Cell.mk' origin scaling l p idx).corner i ≤ x i ∧ x i < (Cell.mk' origin scaling l p idx).corner i + (Cell.mk' origin scaling l p idx).length) ∧
    (∀ i, (Cell.mk' origin scaling l p idx).center i = (Cell.mk' origin scaling l p idx).corner i + (Cell.mk' origin scaling l p idx).length / 2) ∧
    (Cell.mk' origin scaling l p idx).length = 2 * (Cell.mk' origin scaling (l + 1) p idx).length := by
  refine ⟨forall_congr' fun i => and_congr Iff.rfl ?_, fun i => ?_, ?_⟩
  · show x i < origin i + scaling / 2 ^ l * ((p i : R) + 1) ↔ x i < origin i + scaling / 2 ^ l * (p i : R) + scaling / 2 ^ l
    rw [mul_add, mul_one, add_assoc]
  · show origin i + scaling / 2 ^ l * ((p i : R) + 1 / 2) = origin i + scaling / 2 ^ l * (p i : R) + scaling / 2 ^ l / 2
    ring
  · show scaling / 2 ^ l = 2 * (scaling / 2 ^ (l + 1))
    rw [pow_succ]
    field_simp

/-- C46: the two cells on the sides of a face agree on its centre. -/
theorem C46_face {dim : Nat} (origin : Fin dim → R) (scaling : R) (l : Nat) (p dir : Fin dim → Int) (idx idx' : Int) (i : Fin dim) :
    (Cell.mk' origin scaling l p idx).faceCenter dir i = (Cell.mk' origin scaling l (fun j => p j + dir j) idx').faceCenter (fun j => -dir j) i := by
  show origin i + scaling / 2 ^ l * ((p i : R) + 1 / 2) + scaling / 2 ^ l / 2 * (dir i : R)
    = origin i + scaling / 2 ^ l * (((p i + dir i : Int) : R) + 1 / 2) + scaling / 2 ^ l / 2 * ((-dir i : Int) : R)
  push_cast
  ring

/-- C46: both constructors give the same cell. -/
theorem C46_constructors {n : Nat} (origin : Fin (n + 1) → R) (scaling : R) (l : Nat) (i : Int) (others : Fin n → Int) (idx : Int) (p : Fin (n + 1) → Int)
    (h0 : p 0 = i) (hr : ∀ j, p j.succ = others j) : Cell.mkRow origin scaling l i others idx = Cell.mk' origin scaling l p idx := by
  unfold Cell.mkRow Cell.mk'
  congr 1
  funext j
  refine Fin.cases ?_ (fun j => ?_) j
  · exact h0.symm
  · exact (hr j).symm

example : (0 : ℚ) < 2 ∧ InCube (fun _ : Fin 2 => (1 : ℚ)) 2 1 (fun _ => 3) (fun _ => 9 / 2) ∧ InCube (fun _ : Fin 2 => (1 : ℚ)) 2 2 (fun _ => 7) (fun _ => 9 / 2) := by
  refine ⟨by norm_num, fun i => by norm_num, fun i => by norm_num⟩

end Samurai
