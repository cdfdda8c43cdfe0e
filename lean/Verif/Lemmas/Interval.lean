import Verif.Spec.Basic
import Mathlib.Tactic.Ring
import Mathlib.Tactic.Linarith
import Mathlib.Algebra.Order.Ring.Int

namespace Samurai

theorem pow_two_pos (k : Nat) : (0 : Int) < 2 ^ k := by positivity

theorem isAncestor_iff {k : Nat} {a x : Int} : IsAncestor k a x ↔ a = shr x k := by
  unfold IsAncestor shr
  have hp := pow_two_pos k
  constructor
  · rintro ⟨h1, h2⟩
    have h3 : a ≤ x / 2 ^ k := (Int.le_ediv_iff_mul_le hp).2 h1
    have h4 : x / 2 ^ k < a + 1 := (Int.ediv_lt_iff_lt_mul hp).2 h2
    omega
  · rintro rfl
    exact ⟨Int.ediv_mul_le _ (ne_of_gt hp), Int.lt_ediv_add_one_mul_self _ hp⟩

theorem shr_le_shr {a b : Int} (k : Nat) (h : a ≤ b) : shr a k ≤ shr b k :=
  Int.ediv_le_ediv (pow_two_pos k) h

theorem shr_shl (x : Int) (k : Nat) : shr (shl x k) k = x :=
  Int.mul_ediv_cancel _ (ne_of_gt (pow_two_pos k))

theorem le_shr_iff {a x : Int} {k : Nat} : a ≤ shr x k ↔ shl a k ≤ x :=
  Int.le_ediv_iff_mul_le (pow_two_pos k)

theorem shr_lt_iff {a x : Int} {k : Nat} : shr x k < a ↔ x < shl a k :=
  Int.ediv_lt_iff_lt_mul (pow_two_pos k)

theorem shl_lt_shl {a b : Int} (k : Nat) : shl a k < shl b k ↔ a < b :=
  mul_lt_mul_iff_left₀ (pow_two_pos k)

theorem shl_le_shl {a b : Int} (k : Nat) : shl a k ≤ shl b k ↔ a ≤ b :=
  mul_le_mul_iff_left₀ (pow_two_pos k)

theorem shl_shr_le (x : Int) (k : Nat) : shl (shr x k) k ≤ x := le_shr_iff.1 le_rfl

theorem lt_shl_shr_succ (x : Int) (k : Nat) : x < shl (shr x k + 1) k := shr_lt_iff.1 (by omega)

theorem shr_zero (x : Int) : shr x 0 = x := by simp [shr]
theorem shl_zero (x : Int) : shl x 0 = x := by simp [shl]

theorem shr_shr (x : Int) (a b : Nat) : shr (shr x a) b = shr x (a + b) := by
  unfold shr
  rw [pow_add, Int.ediv_ediv_of_nonneg (by positivity)]

theorem shl_shl (x : Int) (a b : Nat) : shl (shl x a) b = shl x (a + b) := by
  unfold shl; rw [pow_add]; ring

theorem mem_shiftLeft {i : Interval} {k : Nat} {x : Int} : x ∈ i.shiftLeft k ↔ shr x k ∈ i := by
  simp only [Interval.mem_def, Interval.shiftLeft, le_shr_iff, shr_lt_iff]

theorem mem_shiftRight {i : Interval} {k : Nat} {x : Int} (hv : i.start < i.stop) :
    x ∈ i.shiftRight k ↔ ∃ y ∈ i, shr y k = x := by
  simp only [Interval.mem_def, Interval.shiftRight]
  constructor
  · rintro ⟨h1, h2⟩
    by_cases h : shl x k < i.start
    · refine ⟨i.start, ⟨le_rfl, hv⟩, ?_⟩
      have := le_shr_iff.2 h.le
      omega
    · refine ⟨shl x k, ⟨by omega, ?_⟩, shr_shl x k⟩
      have : x ≤ shr (i.stop - 1) k := by omega
      have := le_shr_iff.1 this
      omega
  · rintro ⟨y, ⟨h1, h2⟩, rfl⟩
    exact ⟨shr_le_shr k h1, by have := shr_le_shr k (show y ≤ i.stop - 1 by omega); omega⟩

end Samurai
