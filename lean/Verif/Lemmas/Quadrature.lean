/- Lemmas about the Gauss-Legendre quadrature. -/
import Verif.Model.Quadrature
import Mathlib.Analysis.SpecialFunctions.Integrals.Basic
import Mathlib.MeasureTheory.Integral.Pi
import Mathlib.MeasureTheory.Measure.Lebesgue.Basic
import Mathlib.MeasureTheory.Constructions.Pi
import Mathlib.Tactic

namespace Samurai

open MeasureTheory

/-! ### the sums -/

section
variable {K : Type} [Field K]

theorem foldl_add_sum {α : Type} (g : α → K) (l : List α) (s : K) : l.foldl (fun s a => s + g a) s = s + (l.map g).sum := by
  induction l generalizing s with
  | nil => simp
  | cons a l ih => rw [List.foldl_cons, ih, List.map_cons, List.sum_cons, add_assoc]

/-- The moment of order `k` of the nodes. -/
def moment (nodes : List (K × K)) (k : Nat) : K := (nodes.map fun a => a.1 ^ k * a.2).sum

/-- The sum of a combination of products. -/
theorem quadratureSum_monomials {ι : Type} [Fintype ι] {dim : Nat} (h1 : 1 ≤ dim) (h3 : dim ≤ 3) (nodes : List (K × K)) {halfH : K} (hh : halfH ≠ 0) (c : Fin dim → K)
    (a : ι → K) (e : ι → Fin dim → Nat) :
    quadratureSum nodes halfH dim c (fun x => ∑ α, a α * ∏ i, ((x i - c i) / halfH) ^ e α i) = some (∑ α, a α * ∏ i, moment nodes (e α i)) := by
  have key : ∀ (p t : K), (halfH * p + t - t) / halfH = p := fun p t => by field_simp; ring
  have swap : ∀ (β : Type) (l : List β) (g : β → ι → K), (l.map fun b => ∑ α, g b α).sum = ∑ α, (l.map fun b => g b α).sum := fun β l g => by
    induction l with
    | nil => simp
    | cons b l ih => simp [ih, Finset.sum_add_distrib]
  match dim, h1, h3 with
  | 1, _, _ =>
    simp only [quadratureSum]
    rw [foldl_add_sum, zero_add]
    congr 1
    simp only [Fin.prod_univ_one, Matrix.cons_val_zero, key, Finset.sum_mul]
    rw [swap]
    refine Finset.sum_congr rfl fun α _ => ?_
    simp only [moment, mul_assoc, List.sum_map_mul_left]
  | 2, _, _ =>
    simp only [quadratureSum, foldl_add_sum, zero_add]
    congr 1
    simp only [Fin.prod_univ_two, Matrix.cons_val_zero, Matrix.cons_val_one, key, Finset.sum_mul]
    simp only [swap]
    refine Finset.sum_congr rfl fun α _ => ?_
    simp only [moment]
    rw [← List.sum_map_mul_right, ← List.sum_map_mul_left]
    congr 1
    refine List.map_congr_left fun x _ => ?_
    rw [← List.sum_map_mul_left, ← List.sum_map_mul_left]
    congr 1
    refine List.map_congr_left fun y _ => ?_
    ring
  | 3, _, _ =>
    simp only [quadratureSum, foldl_add_sum, zero_add]
    congr 1
    simp only [Fin.prod_univ_three, Matrix.cons_val_zero, Matrix.cons_val_one, Matrix.cons_val_two, Matrix.head_cons, Matrix.tail_cons, Matrix.cons_val, key, Finset.sum_mul]
    simp only [swap]
    refine Finset.sum_congr rfl fun α _ => ?_
    simp only [moment]
    rw [mul_assoc, ← List.sum_map_mul_right, ← List.sum_map_mul_left]
    congr 1
    refine List.map_congr_left fun x _ => ?_
    rw [← List.sum_map_mul_right, ← List.sum_map_mul_left, ← List.sum_map_mul_left]
    congr 1
    refine List.map_congr_left fun y _ => ?_
    rw [← List.sum_map_mul_left, ← List.sum_map_mul_left, ← List.sum_map_mul_left]
    congr 1
    refine List.map_congr_left fun z _ => ?_
    ring

end

/-! ### the tables -/

/-- The moment of order `k` of `[-1, 1]`, multiplied by `k + 1`. -/
def exactMoment (k : Nat) : Int := if k % 2 = 0 then 2 else 0

/-- The table of `m` points is exact up to `5e-16` for the degree `k`: everything is multiplied by `(k + 1) 10^(16 (k + 1))`. -/
def tableOK (m k : Nat) : Bool :=
  match glTable m with
  | none => false
  | some t => decide (2 * 10 ^ 15 * ((k + 1 : Int) * (t.map fun a => a.1 ^ k * a.2).sum - exactMoment k * ((10 ^ (16 * (k + 1)) : Nat) : Int)).natAbs ≤ (k + 1) * 10 ^ (16 * (k + 1)))

theorem tables_ok : ∀ m ∈ List.range' 1 20, ∀ k ∈ List.range (2 * m), tableOK m k = true := by decide +kernel

theorem table_arith {S E : Int} {k N Q : Nat} (hN : 0 < N) (hQ : 0 < Q) (h : Q * ((k + 1 : Int) * S - E * (N : Int)).natAbs ≤ (k + 1) * N) :
    |(S : ℝ) / (N : ℝ) - (E : ℝ) / ((k : ℝ) + 1)| ≤ 1 / (Q : ℝ) := by
  have hP : (0 : ℝ) < N := by exact_mod_cast hN
  have hQ' : (0 : ℝ) < Q := by exact_mod_cast hQ
  have hk1 : (0 : ℝ) < (k : ℝ) + 1 := by positivity
  have e1 : (S : ℝ) / (N : ℝ) - (E : ℝ) / ((k : ℝ) + 1) = (((k + 1 : Int) * S - E * (N : Int) : Int) : ℝ) / (((k : ℝ) + 1) * N) := by
    push_cast
    field_simp
  rw [e1, abs_div, abs_of_pos (mul_pos hk1 hP), div_le_div_iff₀ (mul_pos hk1 hP) hQ', one_mul]
  obtain ⟨Z, hZ⟩ : ∃ Z : Int, (k + 1 : Int) * S - E * (N : Int) = Z := ⟨_, rfl⟩
  rw [hZ] at h ⊢
  have h' : ((Q * Z.natAbs : Nat) : ℝ) ≤ (((k + 1) * N : Nat) : ℝ) := by exact_mod_cast h
  have hz : ((Z.natAbs : Nat) : ℝ) = |(Z : ℝ)| := by rw [Nat.cast_natAbs, Int.cast_abs]
  rw [Nat.cast_mul, Nat.cast_mul, hz, Nat.cast_add, Nat.cast_one] at h'
  linarith

theorem moment_cast (t : List (Int × Int)) (k : Nat) :
    moment (t.map fun a => ((a.1 : ℝ) / 10 ^ 16, (a.2 : ℝ) / 10 ^ 16)) k = (((t.map fun a => a.1 ^ k * a.2).sum : Int) : ℝ) / ((10 ^ (16 * (k + 1)) : Nat) : ℝ) := by
  unfold moment
  rw [List.map_map]
  induction t with
  | nil => simp
  | cons a t ih =>
    simp only [List.map_cons, List.sum_cons, ih, Function.comp]
    rw [Int.cast_add, add_div, Int.cast_mul, Int.cast_pow, Nat.cast_pow]
    congr 1
    rw [div_pow, ← pow_mul, div_mul_div_comm, ← pow_add, mul_add, mul_one]
    norm_cast

theorem moment_table {m k : Nat} (h1 : 1 ≤ m) (h2 : m ≤ 20) (hk : k < 2 * m) : ∃ t, glTable m = some t ∧
    |moment (t.map fun a => ((a.1 : ℝ) / 10 ^ 16, (a.2 : ℝ) / 10 ^ 16)) k - (exactMoment k : ℝ) / (k + 1)| ≤ 1 / (2 * 10 ^ 15) := by
  have h := tables_ok m (List.mem_range'_1.2 ⟨h1, by omega⟩) k (List.mem_range.2 hk)
  unfold tableOK at h
  split at h
  · exact absurd h (by simp)
  · rename_i t ht
    refine ⟨t, ht, ?_⟩
    have h := of_decide_eq_true h
    rw [moment_cast]
    have := table_arith (Nat.pow_pos (by norm_num)) (by norm_num) h
    refine this.trans (le_of_eq ?_)
    norm_num

theorem exactMoment_le (k : Nat) : |(exactMoment k : ℝ) / (k + 1)| ≤ 2 := by
  have hk1 : (0 : ℝ) < (k : ℝ) + 1 := by positivity
  rw [abs_div, abs_of_pos hk1, div_le_iff₀ hk1]
  unfold exactMoment
  split
  · push_cast; rw [abs_of_pos (by norm_num)]; have : (0 : ℝ) ≤ k := by positivity
    linarith
  · push_cast; rw [abs_zero]; positivity

theorem prod_close {dim : Nat} (h3 : dim ≤ 3) {x y : Fin dim → ℝ} (hy : ∀ i, |y i| ≤ 2) (h : ∀ i, |x i - y i| ≤ 1 / (2 * 10 ^ 15)) :
    |∏ i, x i - ∏ i, y i| ≤ 1 / 10 ^ 14 := by
  have hx : ∀ i, |x i| ≤ 3 := fun i => by
    have := h i
    have h' := hy i
    have : |x i| ≤ |x i - y i| + |y i| := by
      have := abs_add_le (x i - y i) (y i)
      simpa using this
    have h2 : (1 : ℝ) / (2 * 10 ^ 15) ≤ 1 := by norm_num
    linarith [h i]
  have mulc : ∀ {a b c d A B e f : ℝ}, |a| ≤ A → |b - d| ≤ f → |d| ≤ B → |a - c| ≤ e → |a * b - c * d| ≤ A * f + e * B := by
    intro a b c d A B e f h1 h2 h3 h4
    have : a * b - c * d = a * (b - d) + (a - c) * d := by ring
    rw [this]
    refine (abs_add_le _ _).trans ?_
    rw [abs_mul, abs_mul]
    have hA := (abs_nonneg a).trans h1
    have he := (abs_nonneg (a - c)).trans h4
    gcongr
  match dim, h3 with
  | 0, _ => simp
  | 1, _ =>
    simp only [Fin.prod_univ_one]
    refine (h 0).trans (by norm_num)
  | 2, _ =>
    simp only [Fin.prod_univ_two]
    refine (mulc (hx 0) (h 1) (hy 1) (h 0)).trans (by norm_num)
  | 3, _ =>
    simp only [Fin.prod_univ_three]
    have h01 := mulc (hx 0) (h 1) (hy 1) (h 0)
    have hx01 : |x 0 * x 1| ≤ 5 := by
      have e1 : |x 0 * x 1 - y 0 * y 1| ≤ 1 := h01.trans (by norm_num)
      have e2 : |y 0 * y 1| ≤ 2 * 2 := by rw [abs_mul]; have := hy 0; have := hy 1; gcongr
      have := abs_add_le (x 0 * x 1 - y 0 * y 1) (y 0 * y 1)
      rw [sub_add_cancel] at this
      linarith
    refine (mulc hx01 (h 2) (hy 2) h01).trans (by norm_num)

/-! ### the integrals -/

theorem integral_monomial (k : Nat) (c : ℝ) {h : ℝ} (hh : 0 < h) : ∫ x in Set.Icc (c - h) (c + h), ((x - c) / h) ^ k = h * ((exactMoment k : ℝ) / (k + 1)) := by
  rw [integral_Icc_eq_integral_Ioc, ← intervalIntegral.integral_of_le (by linarith)]
  rw [intervalIntegral.integral_comp_sub_right (fun x => (x / h) ^ k), intervalIntegral.integral_comp_div (fun x => x ^ k) hh.ne', integral_pow]
  rw [show (c - h - c) / h = -1 by field_simp; ring, show (c + h - c) / h = 1 by field_simp; ring, smul_eq_mul]
  congr 2
  unfold exactMoment
  split
  · rename_i hk
    rw [Odd.neg_one_pow (by rw [Nat.odd_iff]; omega)]; norm_num
  · rename_i hk
    rw [Even.neg_one_pow (by rw [Nat.even_iff]; omega)]; norm_num

theorem integral_product {dim : Nat} (e : Fin dim → Nat) (c : Fin dim → ℝ) {h : ℝ} (hh : 0 < h) :
    ∫ x in Set.univ.pi fun i => Set.Icc (c i - h) (c i + h), ∏ i, ((x i - c i) / h) ^ e i = h ^ dim * ∏ i, (exactMoment (e i) : ℝ) / (e i + 1) := by
  have : (volume : Measure (Fin dim → ℝ)).restrict (Set.univ.pi fun i => Set.Icc (c i - h) (c i + h)) = Measure.pi fun i => (volume : Measure ℝ).restrict (Set.Icc (c i - h) (c i + h)) := by
    rw [volume_pi, Measure.restrict_pi_pi]
  rw [this, integral_fintype_prod_eq_prod (fun i (t : ℝ) => ((t - c i) / h) ^ e i)]
  simp only [integral_monomial _ _ hh, Finset.prod_mul_distrib, Finset.prod_const, Finset.card_univ, Fintype.card_fin]

theorem integral_combination {ι : Type} [Fintype ι] {dim : Nat} (a : ι → ℝ) (e : ι → Fin dim → Nat) (c : Fin dim → ℝ) {h : ℝ} (hh : 0 < h) :
    ∫ x in Set.univ.pi fun i => Set.Icc (c i - h) (c i + h), ∑ α, a α * ∏ i, ((x i - c i) / h) ^ e α i =
      h ^ dim * ∑ α, a α * ∏ i, (exactMoment (e α i) : ℝ) / (e α i + 1) := by
  rw [integral_finsetSum]
  · rw [Finset.mul_sum]
    refine Finset.sum_congr rfl fun α _ => ?_
    rw [integral_const_mul, integral_product _ _ hh]
    ring
  · intro α _
    refine ContinuousOn.integrableOn_compact ?_ ?_
    · exact isCompact_univ_pi fun i => isCompact_Icc
    · exact Continuous.continuousOn (by fun_prop)

end Samurai
