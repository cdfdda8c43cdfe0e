/-
Lemmas on the prediction operators: linearity, dependence on one direction, exactness on monomials.
-/
import Verif.Spec.Prediction
import Mathlib.Analysis.SpecialFunctions.Integrals.Basic
import Mathlib.Tactic.Ring
import Mathlib.Tactic.FieldSimp
import Mathlib.Tactic.Linarith

namespace Samurai
variable {K : Type} [Field K]

theorem shr_two_mul (x : Int) (b : Bool) : shr (2 * x + (if b then 1 else 0)) 1 = x := by
  unfold shr
  cases b <;> simp
  omega

theorem isOdd_two_mul (x : Int) (b : Bool) : isOdd (2 * x + (if b then 1 else 0)) = b := by
  unfold isOdd; cases b <;> simp

theorem parentPt_childPt (p : Pt) (a : Nat → Bool) : parentPt (childPt p a) = p :=
  funext fun d => shr_two_mul (p d) (a d)

theorem move_same (p : Pt) (d : Nat) (s : Int) : move p d s d = p d + s := by simp [move]

theorem move_other (p : Pt) (d e : Nat) (s : Int) (h : e ≠ d) : move p d s e = p e := by simp [move, h]

/-- The operator `qsFrom` as an operation on the values of its operand. -/
theorem qsFrom_congr (c : List K) (S d : Nat) (e e' : QsExpr K) (k : Nat) (p : Pt)
    (h : ∀ m s, e m (move p d s) = e' m (move p d s)) : qsFrom c S d e k p = qsFrom c S d e' k p := by
  induction k with
  | zero => simp only [qsFrom, h]
  | succ k ih => simp only [qsFrom, h, ih]

theorem qsFrom_add (c : List K) (S d : Nat) (e e' : QsExpr K) (k : Nat) (p : Pt) :
    qsFrom c S d (fun s q => e s q + e' s q) k p = qsFrom c S d e k p + qsFrom c S d e' k p := by
  induction k with
  | zero => simp only [qsFrom]; ring
  | succ k ih => simp only [qsFrom, ih]; ring

theorem qsFrom_smul (c : List K) (S d : Nat) (e : QsExpr K) (x : K) (k : Nat) (p : Pt) :
    qsFrom c S d (fun s q => x * e s q) k p = x * qsFrom c S d e k p := by
  induction k with
  | zero => simp only [qsFrom]; ring
  | succ k ih => simp only [qsFrom, ih]; ring

/-- No variation in the direction: zero. -/
theorem qsFrom_const (c : List K) (S d : Nat) (e : QsExpr K) (k : Nat) (p : Pt)
    (h : ∀ m s, e m (move p d s) = e m p) : qsFrom c S d e k p = 0 := by
  induction k with
  | zero => simp [qsFrom, h]
  | succ k ih => simp [qsFrom, h, ih]

theorem Qs_add (order d : Nat) (f g : Pt → K) (p : Pt) :
    Qs order d (fun q => f q + g q) p = Qs order d f p + Qs order d g p :=
  qsFrom_add _ _ _ (fieldHack f) (fieldHack g) _ p

theorem Qs_smul (order d : Nat) (f : Pt → K) (x : K) (p : Pt) :
    Qs order d (fun q => x * f q) p = x * Qs order d f p :=
  qsFrom_smul _ _ _ (fieldHack f) x _ p

theorem Qs_const (order d : Nat) (f : Pt → K) (p : Pt) (h : ∀ s, f (move p d s) = f p) : Qs order d f p = 0 :=
  qsFrom_const _ _ _ _ _ _ fun _ s => h s

theorem Qs_congr (order d : Nat) (f g : Pt → K) (p : Pt) (h : ∀ s, f (move p d s) = g (move p d s)) :
    Qs order d f p = Qs order d g p :=
  qsFrom_congr _ _ _ _ _ _ _ fun _ s => h s

/-- A field which is a sum of functions of one coordinate. -/
def Separable (f : Pt → K) (A : Nat → Int → K) : Prop := ∀ q, f q = A 0 (q 0) + A 1 (q 1) + A 2 (q 2)

/-- On a sum of functions of one coordinate the operator in direction `d` only sees the `d`-th one. -/
theorem qsOp_separable (c : List K) (S d : Nat) (hd : d < 3) (f : Pt → K) (A : Nat → Int → K) (hf : Separable f A)
    (s : Nat) (p : Pt) :
    qsOp c S d (fieldHack f) s p = qsOp c S d (fieldHack fun q => A d (q d)) s p := by
  let g : Pt → K := fun q => f q - A d (q d)
  have h1 : fieldHack f = fun (s : Nat) q => fieldHack (fun q => A d (q d)) s q + fieldHack g s q := by
    funext s q; simp [fieldHack, g]
  rw [h1]
  show qsFrom _ _ _ _ _ _ = qsFrom _ _ _ _ _ _
  rw [qsFrom_add, qsFrom_const c S d (fieldHack g), add_zero]
  intro m t
  have hf' : ∀ q, f q = A 0 (q 0) + A 1 (q 1) + A 2 (q 2) := hf
  simp only [fieldHack, g, hf']
  rcases (by omega : d = 0 ∨ d = 1 ∨ d = 2) with rfl | rfl | rfl
  · simp [move]; ring
  · simp [move]; ring
  · simp [move]

theorem Qs2_separable (order d e : Nat) (he : e < 3) (hde : d ≠ e) (f : Pt → K) (A : Nat → Int → K)
    (hf : Separable f A) (p : Pt) : Qs2 order d e f p = 0 := by
  refine qsFrom_const _ _ _ _ _ _ fun m s => ?_
  rw [qsOp_separable _ _ _ he f A hf, qsOp_separable _ _ _ he f A hf]
  simp only [qsOp]
  generalize order - m = k
  have hm : ∀ t, fieldHack (fun q => A e (q e)) 0 (move (move p d s) e t) = A e (p e + t) := by
    intro t; simp [fieldHack, move, Ne.symm hde]
  have hm' : ∀ t, fieldHack (fun q => A e (q e)) 0 (move p e t) = A e (p e + t) := by
    intro t; simp [fieldHack, move]
  induction k with
  | zero =>
    simp only [qsFrom, fieldHack] at *
    rw [hm, hm, hm', hm']
  | succ k ih =>
    simp only [qsFrom, fieldHack] at *
    rw [hm, hm, hm', hm', ih]

theorem Qs3_separable (order : Nat) (f : Pt → K) (A : Nat → Int → K)
    (hf : Separable f A) (p : Pt) : Qs3 order f p = 0 := by
  have h2 : ∀ m q, qsOp (predictionCoeffs order) order 1 (qsOp (predictionCoeffs order) order 2 (fieldHack f)) m q = 0 := by
    intro m q
    refine qsFrom_const _ _ _ _ _ _ fun m s => ?_
    rw [qsOp_separable _ _ _ (by omega) f A hf, qsOp_separable _ _ _ (by omega) f A hf]
    simp only [qsOp]
    generalize order - m = k
    have hm : ∀ t, fieldHack (fun q => A 2 (q 2)) 0 (move (move q 1 s) 2 t) = A 2 (q 2 + t) := by
      intro t; simp [fieldHack, move]
    have hm' : ∀ t, fieldHack (fun q => A 2 (q 2)) 0 (move q 2 t) = A 2 (q 2 + t) := by
      intro t; simp [fieldHack, move]
    induction k with
    | zero =>
      simp only [qsFrom, fieldHack] at *
      rw [hm, hm, hm', hm']
    | succ k ih =>
      simp only [qsFrom, fieldHack] at *
      rw [hm, hm, hm', hm', ih]
  refine qsFrom_const _ _ _ _ _ _ fun m s => ?_
  rw [h2, h2]

/-! ### Exactness on monomials -/

/-- `x ↦ x^n` between the ends of the cell `j` after the cell starting at `y`. -/
def incr (y h : K) (n : Nat) (j : K) : K := (y + (j + 1) * h) ^ n - (y + j * h) ^ n

theorem mono1 [CharZero K] (y h : K) (n : Nat) (hn : n ≤ 3) :
    incr y h n 0 - 1 / 8 * (incr y h n 1 - incr y h n (-1)) = 2 * ((y + h / 2) ^ n - y ^ n) := by
  unfold incr
  rcases (by omega : n = 0 ∨ n = 1 ∨ n = 2 ∨ n = 3) with rfl | rfl | rfl | rfl <;> ring

theorem mono2 [CharZero K] (y h : K) (n : Nat) (hn : n ≤ 5) :
    incr y h n 0 - 22 / 128 * (incr y h n 1 - incr y h n (-1)) + 3 / 128 * (incr y h n 2 - incr y h n (-2))
      = 2 * ((y + h / 2) ^ n - y ^ n) := by
  unfold incr
  rcases (by omega : n = 0 ∨ n = 1 ∨ n = 2 ∨ n = 3 ∨ n = 4 ∨ n = 5) with rfl | rfl | rfl | rfl | rfl | rfl <;> ring

theorem mono3 [CharZero K] (y h : K) (n : Nat) (hn : n ≤ 7) :
    incr y h n 0 - 201 / 1024 * (incr y h n 1 - incr y h n (-1)) + 11 / 256 * (incr y h n 2 - incr y h n (-2))
        - 5 / 1024 * (incr y h n 3 - incr y h n (-3))
      = 2 * ((y + h / 2) ^ n - y ^ n) := by
  unfold incr
  rcases (by omega : n = 0 ∨ n = 1 ∨ n = 2 ∨ n = 3 ∨ n = 4 ∨ n = 5 ∨ n = 6 ∨ n = 7)
    with rfl | rfl | rfl | rfl | rfl | rfl | rfl | rfl <;> ring

theorem mono4 [CharZero K] (y h : K) (n : Nat) (hn : n ≤ 9) :
    incr y h n 0 - 3461 / 16384 * (incr y h n 1 - incr y h n (-1)) + 949 / 16384 * (incr y h n 2 - incr y h n (-2))
        - 185 / 16384 * (incr y h n 3 - incr y h n (-3)) + 35 / 32768 * (incr y h n 4 - incr y h n (-4))
      = 2 * ((y + h / 2) ^ n - y ^ n) := by
  unfold incr
  rcases (by omega : n = 0 ∨ n = 1 ∨ n = 2 ∨ n = 3 ∨ n = 4 ∨ n = 5 ∨ n = 6 ∨ n = 7 ∨ n = 8 ∨ n = 9)
    with rfl | rfl | rfl | rfl | rfl | rfl | rfl | rfl | rfl | rfl <;> ring

set_option maxHeartbeats 1000000 in
theorem mono5 [CharZero K] (y h : K) (n : Nat) (hn : n ≤ 11) :
    incr y h n 0 - 29011 / 131072 * (incr y h n 1 - incr y h n (-1)) + 569 / 8192 * (incr y h n 2 - incr y h n (-2))
        - 4661 / 262144 * (incr y h n 3 - incr y h n (-3)) + 49 / 16384 * (incr y h n 4 - incr y h n (-4))
        - 63 / 262144 * (incr y h n 5 - incr y h n (-5))
      = 2 * ((y + h / 2) ^ n - y ^ n) := by
  unfold incr
  rcases (by omega : n = 0 ∨ n = 1 ∨ n = 2 ∨ n = 3 ∨ n = 4 ∨ n = 5 ∨ n = 6 ∨ n = 7 ∨ n = 8 ∨ n = 9 ∨ n = 10 ∨ n = 11)
    with rfl | rfl | rfl | rfl | rfl | rfl | rfl | rfl | rfl | rfl | rfl | rfl <;> ring

/-- The increment of `x^n` over the cell `i` of the grid with origin `x0`. -/
def cellIncr (x0 h : K) (n : Nat) (i : Int) : K := (x0 + (i + 1) * h) ^ n - (x0 + i * h) ^ n

theorem cellIncr_add (x0 h : K) (n : Nat) (i j : Int) :
    cellIncr x0 h n (i + j) = incr (x0 + i * h) h n (j : K) := by
  unfold cellIncr incr
  congr 2 <;> push_cast <;> ring

theorem Qs_order1 (d : Nat) (f : Pt → K) (p : Pt) :
    Qs 1 d f p = -1 / 8 * (f (move p d (((1 : Nat)) : Int)) - f (move p d (-((1 : Nat) : Int)))) := rfl

theorem Qs_order2 (d : Nat) (f : Pt → K) (p : Pt) :
    Qs 2 d f p = -22 / 128 * (f (move p d (((1 : Nat)) : Int)) - f (move p d (-((1 : Nat) : Int)))) + (3 / 128 * (f (move p d (((2 : Nat)) : Int)) - f (move p d (-((2 : Nat) : Int))))) := rfl

theorem Qs_order3 (d : Nat) (f : Pt → K) (p : Pt) :
    Qs 3 d f p = -201 / 1024 * (f (move p d (((1 : Nat)) : Int)) - f (move p d (-((1 : Nat) : Int)))) + (11 / 256 * (f (move p d (((2 : Nat)) : Int)) - f (move p d (-((2 : Nat) : Int)))) + (-5 / 1024 * (f (move p d (((3 : Nat)) : Int)) - f (move p d (-((3 : Nat) : Int)))))) := rfl

theorem Qs_order4 (d : Nat) (f : Pt → K) (p : Pt) :
    Qs 4 d f p = -3461 / 16384 * (f (move p d (((1 : Nat)) : Int)) - f (move p d (-((1 : Nat) : Int)))) + (949 / 16384 * (f (move p d (((2 : Nat)) : Int)) - f (move p d (-((2 : Nat) : Int)))) + (-185 / 16384 * (f (move p d (((3 : Nat)) : Int)) - f (move p d (-((3 : Nat) : Int)))) + (35 / 32768 * (f (move p d (((4 : Nat)) : Int)) - f (move p d (-((4 : Nat) : Int))))))) := rfl

theorem Qs_order5 (d : Nat) (f : Pt → K) (p : Pt) :
    Qs 5 d f p = -29011 / 131072 * (f (move p d (((1 : Nat)) : Int)) - f (move p d (-((1 : Nat) : Int)))) + (569 / 8192 * (f (move p d (((2 : Nat)) : Int)) - f (move p d (-((2 : Nat) : Int)))) + (-4661 / 262144 * (f (move p d (((3 : Nat)) : Int)) - f (move p d (-((3 : Nat) : Int)))) + (49 / 16384 * (f (move p d (((4 : Nat)) : Int)) - f (move p d (-((4 : Nat) : Int)))) + (-63 / 262144 * (f (move p d (((5 : Nat)) : Int)) - f (move p d (-((5 : Nat) : Int)))))))) := rfl

theorem Qs_cellIncr [CharZero K] (order d : Nat) (ho : 1 ≤ order ∧ order ≤ 5) (x0 h : K) (n : Nat) (hn : n ≤ 2 * order + 1)
    (p : Pt) :
    cellIncr x0 h n (p d) + Qs order d (fun q => cellIncr x0 h n (q d)) p
      = 2 * ((x0 + p d * h + h / 2) ^ n - (x0 + p d * h) ^ n) := by
  have h0 : cellIncr x0 h n (p d) = incr (x0 + p d * h) h n 0 := by
    have := cellIncr_add x0 h n (p d) 0
    simpa using this
  rcases (by omega : order = 1 ∨ order = 2 ∨ order = 3 ∨ order = 4 ∨ order = 5) with rfl | rfl | rfl | rfl | rfl
  · rw [← mono1 _ h n hn, Qs_order1]
    simp only [move_same, cellIncr_add, h0]
    norm_num
    ring
  · rw [← mono2 _ h n hn, Qs_order2]
    simp only [move_same, cellIncr_add, h0]
    norm_num
    ring
  · rw [← mono3 _ h n hn, Qs_order3]
    simp only [move_same, cellIncr_add, h0]
    norm_num
    ring
  · rw [← mono4 _ h n hn, Qs_order4]
    simp only [move_same, cellIncr_add, h0]
    norm_num
    ring
  · rw [← mono5 _ h n hn, Qs_order5]
    simp only [move_same, cellIncr_add, h0]
    norm_num
    ring

/-- The mean of a polynomial of degree below `N` over a cell. -/
theorem cellMean_eq (u : Polynomial ℝ) (N : Nat) (hu : u.natDegree < N) (x0 h : ℝ) (i : Int) :
    cellMean (fun x => u.eval x) x0 h i
      = ∑ k ∈ Finset.range N, u.coeff k / ((k : ℝ) + 1) / h * cellIncr x0 h (k + 1) i := by
  unfold cellMean meanOn
  have h1 : ∀ x, u.eval x = ∑ k ∈ Finset.range N, u.coeff k * x ^ k := fun x =>
    Polynomial.eval_eq_sum_range' hu x
  simp only [h1]
  rw [intervalIntegral.integral_finsetSum]
  · have h2 : x0 + ((i : ℝ) + 1) * h - (x0 + i * h) = h := by ring
    rw [h2, Finset.sum_div]
    refine Finset.sum_congr rfl fun k _ => ?_
    rw [intervalIntegral.integral_const_mul, integral_pow]
    unfold cellIncr
    ring
  · intro k _
    exact (Continuous.intervalIntegrable (by fun_prop) _ _)

theorem Qs_sum {ι : Type} (t : Finset ι) (order d : Nat) (F : ι → Pt → K) (x : ι → K) (p : Pt) :
    Qs order d (fun q => ∑ k ∈ t, x k * F k q) p = ∑ k ∈ t, x k * Qs order d (F k) p := by
  classical
  induction t using Finset.induction_on with
  | empty => simp [Qs_const]
  | insert a t ha ih =>
    simp only [Finset.sum_insert ha]
    rw [Qs_add order d (fun q => x a * F a q) (fun q => ∑ k ∈ t, x k * F k q), Qs_smul, ih]

/-- The 1D prediction in one direction is exact on the means of polynomials: even child. -/
theorem Qs_mean (order d : Nat) (ho : 1 ≤ order ∧ order ≤ 5) (u : Polynomial ℝ) (hu : u.natDegree ≤ 2 * order)
    (x0 h : ℝ) (p : Pt) :
    cellMean (fun x => u.eval x) x0 h (p d) + Qs order d (fun q => cellMean (fun x => u.eval x) x0 h (q d)) p
      = cellMean (fun x => u.eval x) x0 (h / 2) (2 * p d) := by
  have hN : u.natDegree < 2 * order + 1 := by omega
  simp only [cellMean_eq u _ hN]
  rw [Qs_sum (Finset.range (2 * order + 1)) order d (fun k q => cellIncr x0 h (k + 1) (q d)), ← Finset.sum_add_distrib]
  refine Finset.sum_congr rfl fun k hk => ?_
  rw [← mul_add, Qs_cellIncr order d ho x0 h (k + 1) (by simp at hk; omega)]
  have e : cellIncr x0 (h / 2) (k + 1) (2 * p d)
      = (x0 + p d * h + h / 2) ^ (k + 1) - (x0 + p d * h) ^ (k + 1) := by
    unfold cellIncr
    congr 2 <;> push_cast <;> ring
  rw [e]
  ring

/-- A cell is cut into two children of half its length. -/
theorem cellMean_split (u : Polynomial ℝ) (x0 h : ℝ) (i : Int) :
    cellMean (fun x => u.eval x) x0 h i
      = (cellMean (fun x => u.eval x) x0 (h / 2) (2 * i) + cellMean (fun x => u.eval x) x0 (h / 2) (2 * i + 1)) / 2 := by
  simp only [cellMean_eq u _ (Nat.lt_succ_self _)]
  rw [← Finset.sum_add_distrib, Finset.sum_div]
  refine Finset.sum_congr rfl fun k _ => ?_
  have e : cellIncr x0 (h / 2) (k + 1) (2 * i) + cellIncr x0 (h / 2) (k + 1) (2 * i + 1) = cellIncr x0 h (k + 1) i := by
    unfold cellIncr
    have e1 : x0 + (((2 * i + 1 : Int) : ℝ) + 1) * (h / 2) = x0 + (i + 1) * h := by push_cast; ring
    have e2 : x0 + ((2 * i + 1 : Int) : ℝ) * (h / 2) = x0 + (((2 * i : Int) : ℝ) + 1) * (h / 2) := by push_cast; ring
    have e3 : x0 + ((2 * i : Int) : ℝ) * (h / 2) = x0 + i * h := by push_cast; ring
    rw [e1, e2, e3]
    ring
  rw [← e]
  ring

/-- Odd child. -/
theorem Qs_mean_odd (order d : Nat) (ho : 1 ≤ order ∧ order ≤ 5) (u : Polynomial ℝ) (hu : u.natDegree ≤ 2 * order)
    (x0 h : ℝ) (p : Pt) :
    cellMean (fun x => u.eval x) x0 h (p d) - Qs order d (fun q => cellMean (fun x => u.eval x) x0 h (q d)) p
      = cellMean (fun x => u.eval x) x0 (h / 2) (2 * p d + 1) := by
  have h1 := Qs_mean order d ho u hu x0 h p
  have h2 := cellMean_split u x0 h (p d)
  linarith

/-! ### The tensor product -/

theorem interpolate_eq (order d : Nat) (ho : 1 ≤ order ∧ order ≤ 5) (a : Bool) (g : Pt → K) (p : Pt) :
    interpolate (interpCoeffs order (childSign a : K)) (fun s => g (move p d s)) = g p + childSign a * Qs order d g p := by
  have h0 : g (move p d 0) = g p := by
    congr 1; funext e; simp [move]
  rcases (by omega : order = 1 ∨ order = 2 ∨ order = 3 ∨ order = 4 ∨ order = 5) with rfl | rfl | rfl | rfl | rfl
  · rw [Qs_order1]
    simp only [interpolate, interpCoeffs, List.length_cons, List.length_nil, List.range_succ, List.range_zero]
    simp [h0]
    ring
  · rw [Qs_order2]
    simp only [interpolate, interpCoeffs, List.length_cons, List.length_nil, List.range_succ, List.range_zero]
    simp [h0]
    ring
  · rw [Qs_order3]
    simp only [interpolate, interpCoeffs, List.length_cons, List.length_nil, List.range_succ, List.range_zero]
    simp [h0]
    ring
  · rw [Qs_order4]
    simp only [interpolate, interpCoeffs, List.length_cons, List.length_nil, List.range_succ, List.range_zero]
    simp [h0]
    ring
  · rw [Qs_order5]
    simp only [interpolate, interpCoeffs, List.length_cons, List.length_nil, List.range_succ, List.range_zero]
    simp [h0]
    ring

end Samurai
