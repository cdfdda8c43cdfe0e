/-
Lemmas on the descendants of a cell.
-/
import Verif.Spec.Cell
import Mathlib.Algebra.BigOperators.Group.Finset.Basic
import Mathlib.Algebra.BigOperators.Ring.Finset
import Mathlib.Data.Fintype.Pi
import Mathlib.Data.Fintype.BigOperators
import Mathlib.Order.Interval.Finset.Basic
import Mathlib.Data.Int.Interval
import Mathlib.Tactic.Ring
import Mathlib.Tactic.FieldSimp
import Mathlib.Tactic.Linarith
import Mathlib.Tactic.Positivity

namespace Samurai

/-- The descendants `k` levels down. -/
def descSet {dim : Nat} (k : Nat) (p : Fin dim → Int) : Finset (Fin dim → Int) :=
  Fintype.piFinset fun i => Finset.Ico (p i * 2 ^ k) ((p i + 1) * 2 ^ k)

theorem mem_descSet {dim k : Nat} {p q : Fin dim → Int} : q ∈ descSet k p ↔ Desc k p q := by
  unfold descSet Desc IsAncestor
  rw [Fintype.mem_piFinset]
  simp only [Finset.mem_Ico]

theorem card_descSet {dim : Nat} (k : Nat) (p : Fin dim → Int) : (descSet k p).card = 2 ^ (k * dim) := by
  unfold descSet
  rw [Fintype.card_piFinset]
  have : ∀ i, (Finset.Ico (p i * 2 ^ k) ((p i + 1) * 2 ^ k)).card = 2 ^ k := by
    intro i
    rw [Int.card_Ico, add_mul, one_mul, add_sub_cancel_left]
    exact_mod_cast Int.toNat_natCast (2 ^ k)
  simp only [this, Finset.prod_const, Finset.card_univ, Fintype.card_fin, ← pow_mul]

variable {R : Type} [Field R] [LinearOrder R] [IsStrictOrderedRing R]

theorem floor_below (y : R) (h0 : 0 ≤ y) : ∀ n : Nat, y < n → ∃ m : Nat, m < n ∧ (m : R) ≤ y ∧ y < m + 1 := by
  intro n
  induction n with
  | zero => intro h; simp at h; exact absurd h0 (not_le.2 h)
  | succ n ih =>
    intro h
    by_cases hn : y < n
    · obtain ⟨m, h1, h2, h3⟩ := ih hn
      exact ⟨m, by omega, h2, h3⟩
    · push_cast at h
      exact ⟨n, by omega, not_lt.1 hn, h⟩

/-- One coordinate: a point of `[a, a + 1)` in units of the coarse side is in exactly one `[b, b + 1)` in units of the fine side. -/
theorem split1 {o s : R} (hs : 0 < s) {l k : Nat} {a : Int} {x : R} :
    (o + s / 2 ^ l * (a : R) ≤ x ∧ x < o + s / 2 ^ l * ((a : R) + 1)) ↔
      ∃ b : Int, IsAncestor k a b ∧ o + s / 2 ^ (l + k) * (b : R) ≤ x ∧ x < o + s / 2 ^ (l + k) * ((b : R) + 1) := by
  have hl : (0 : R) < 2 ^ l := by positivity
  have hk : (0 : R) < 2 ^ k := by positivity
  have hf : 0 < s / 2 ^ (l + k) := by positivity
  have he : s / 2 ^ l = s / 2 ^ (l + k) * 2 ^ k := by
    rw [pow_add]; field_simp
  constructor
  · rintro ⟨h1, h2⟩
    rw [he] at h1 h2
    have e : x = o + s / 2 ^ (l + k) * ((x - o) / (s / 2 ^ (l + k))) := by
      rw [mul_div_cancel₀ _ (ne_of_gt hf)]; ring
    set t := (x - o) / (s / 2 ^ (l + k)) with ht
    have g1 : (2 : R) ^ k * a ≤ t := by
      rw [e] at h1
      have : s / 2 ^ (l + k) * (2 ^ k * (a : R)) ≤ s / 2 ^ (l + k) * t := by linarith [mul_assoc (s / 2 ^ (l + k)) (2 ^ k) (a : R)]
      exact le_of_mul_le_mul_left this hf
    have g2 : t < (2 : R) ^ k * (a + 1) := by
      rw [e] at h2
      have : s / 2 ^ (l + k) * t < s / 2 ^ (l + k) * (2 ^ k * ((a : R) + 1)) := by linarith [mul_assoc (s / 2 ^ (l + k)) (2 ^ k) ((a : R) + 1)]
      exact lt_of_mul_lt_mul_left this hf.le
    obtain ⟨m, m1, m2, m3⟩ := floor_below (t - 2 ^ k * a) (by linarith) (2 ^ k) (by push_cast; linarith)
    refine ⟨a * 2 ^ k + m, ⟨by omega, ?_⟩, ?_, ?_⟩
    · have : (m : Int) < 2 ^ k := by exact_mod_cast m1
      rw [add_mul, one_mul]; omega
    · rw [e]
      have := mul_le_mul_of_nonneg_left (show ((a * 2 ^ k + (m : Int) : Int) : R) ≤ t by push_cast; linarith) hf.le
      linarith
    · rw [e]
      have := mul_lt_mul_of_pos_left (show t < ((a * 2 ^ k + (m : Int) : Int) : R) + 1 by push_cast; linarith) hf
      linarith
  · rintro ⟨b, ⟨b1, b2⟩, h1, h2⟩
    have c1 : (a : R) * 2 ^ k ≤ b := by exact_mod_cast b1
    have c2 : (b : R) + 1 ≤ (a + 1) * 2 ^ k := by exact_mod_cast b2
    rw [he]
    have d1 := mul_le_mul_of_nonneg_left c1 hf.le
    have d2 := mul_le_mul_of_nonneg_left c2 hf.le
    constructor
    · calc o + s / 2 ^ (l + k) * 2 ^ k * (a : R) = o + s / 2 ^ (l + k) * (a * 2 ^ k) := by ring
        _ ≤ x := by linarith
    · calc x < o + s / 2 ^ (l + k) * ((a + 1) * 2 ^ k) := by linarith
        _ = _ := by ring

/-- One coordinate: a point is in one `[b, b + 1)` only. -/
theorem cube_unique1 {o d : R} (hd : 0 < d) {a b : Int} {x : R} (h1 : o + d * (a : R) ≤ x ∧ x < o + d * ((a : R) + 1)) (h2 : o + d * (b : R) ≤ x ∧ x < o + d * ((b : R) + 1)) : a = b := by
  have key : ∀ a b : Int, o + d * (a : R) ≤ x → x < o + d * ((b : R) + 1) → a < b + 1 := by
    intro a b ha hb
    have : d * (a : R) < d * ((b : R) + 1) := by linarith
    have := lt_of_mul_lt_mul_left this hd.le
    exact_mod_cast this
  have := key a b h1.1 h2.2
  have := key b a h2.1 h1.2
  omega

/-- The centres of the descendants are symmetric with respect to the centre. -/
theorem sum_desc {dim : Nat} (k : Nat) (p : Fin dim → Int) (i : Fin dim) :
    ∑ q ∈ descSet k p, ((q i : R) + 1 / 2) = ((descSet k p).card : R) * (((p i : R) + 1 / 2) * 2 ^ k) := by
  have hr : ∑ q ∈ descSet k p, ((q i : R) + 1 / 2) = ∑ q ∈ descSet k p, ((((2 * p i + 1) * 2 ^ k - 1 - q i : Int) : R) + 1 / 2) := by
    refine Finset.sum_bij' (fun q _ j => (2 * p j + 1) * 2 ^ k - 1 - q j) (fun q _ j => (2 * p j + 1) * 2 ^ k - 1 - q j) ?_ ?_ ?_ ?_ ?_
    · intro q hq
      rw [mem_descSet] at hq ⊢
      intro j
      obtain ⟨h1, h2⟩ := hq j
      have e : (2 * p j + 1) * (2 : Int) ^ k = p j * 2 ^ k + (p j + 1) * 2 ^ k := by ring
      constructor <;> (dsimp only; omega)
    · intro q hq
      rw [mem_descSet] at hq ⊢
      intro j
      obtain ⟨h1, h2⟩ := hq j
      have e : (2 * p j + 1) * (2 : Int) ^ k = p j * 2 ^ k + (p j + 1) * 2 ^ k := by ring
      constructor <;> (dsimp only; omega)
    · intro q _; funext j; dsimp only; omega
    · intro q _; funext j; dsimp only; omega
    · intro q _
      congr 1
      push_cast
      ring
  have h2 : (2 : R) * ∑ q ∈ descSet k p, ((q i : R) + 1 / 2) = 2 * (((descSet k p).card : R) * (((p i : R) + 1 / 2) * 2 ^ k)) := by
    calc (2 : R) * ∑ q ∈ descSet k p, ((q i : R) + 1 / 2)
        = ∑ q ∈ descSet k p, ((q i : R) + 1 / 2) + ∑ q ∈ descSet k p, ((((2 * p i + 1) * 2 ^ k - 1 - q i : Int) : R) + 1 / 2) := by rw [← hr]; ring
      _ = ∑ q ∈ descSet k p, ((2 * (p i : R) + 1) * 2 ^ k) := by
          rw [← Finset.sum_add_distrib]
          refine Finset.sum_congr rfl fun q _ => ?_
          push_cast
          ring
      _ = _ := by
          rw [Finset.sum_const, nsmul_eq_mul]
          ring
  exact mul_left_cancel₀ (by norm_num) h2

end Samurai
