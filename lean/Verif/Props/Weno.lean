/-
C47: WENO5 reconstruction.
-/
import Verif.Spec.Weno
import Mathlib.Tactic.Ring
import Mathlib.Tactic.FieldSimp
import Mathlib.Tactic.Linarith
import Mathlib.Tactic.Positivity
import Mathlib.Data.Rat.Defs

namespace Samurai

variable {R : Type} [Field R] [LinearOrder R] [IsStrictOrderedRing R]

theorem wenoIS_nonneg (f : Five R) : 0 ≤ wenoIS0 f ∧ 0 ≤ wenoIS1 f ∧ 0 ≤ wenoIS2 f := by
  unfold wenoIS0 wenoIS1 wenoIS2
  refine ⟨by positivity, by positivity, by positivity⟩

theorem wenoAlpha_pos {g is : R} (hg : 0 < g) (h : 0 ≤ is) : 0 < wenoAlpha g is := by
  have : (0 : R) < wenoEps := by unfold wenoEps; positivity
  unfold wenoAlpha
  positivity

theorem weno_alphas (f : Five R) : 0 < wenoAlpha (1 / 10) (wenoIS0 f) ∧ 0 < wenoAlpha (6 / 10) (wenoIS1 f) ∧ 0 < wenoAlpha (3 / 10) (wenoIS2 f) := by
  obtain ⟨h0, h1, h2⟩ := wenoIS_nonneg f
  exact ⟨wenoAlpha_pos (by norm_num) h0, wenoAlpha_pos (by norm_num) h1, wenoAlpha_pos (by norm_num) h2⟩

/-- C47: `compute_weno5_flux` never divides by zero: the result is the mean of the three candidate reconstructions with positive weights of sum one, so it lies between
the least and the greatest of them. -/
theorem C47_convex (f : Five R) :
    ∃ w0 w1 w2 : R, 0 < w0 ∧ 0 < w1 ∧ 0 < w2 ∧ w0 + w1 + w2 = 1 ∧
      weno5 f = w0 * (1 / 3 * f.f0 - 7 / 6 * f.f1 + 11 / 6 * f.f2) + w1 * (-1 / 6 * f.f1 + 5 / 6 * f.f2 + 1 / 3 * f.f3) + w2 * (1 / 3 * f.f2 + 5 / 6 * f.f3 - 1 / 6 * f.f4) ∧
      min (wenoQ0 f) (min (wenoQ1 f) (wenoQ2 f)) ≤ weno5 f ∧ weno5 f ≤ max (wenoQ0 f) (max (wenoQ1 f) (wenoQ2 f)) := by
  obtain ⟨a0, a1, a2⟩ := weno_alphas f
  have hs : 0 < wenoAlpha (1 / 10) (wenoIS0 f) + wenoAlpha (6 / 10) (wenoIS1 f) + wenoAlpha (3 / 10) (wenoIS2 f) := by linarith
  have h0 : 0 < wenoOmega0 f := div_pos a0 hs
  have h1 : 0 < wenoOmega1 f := div_pos a1 hs
  have h2 : 0 < wenoOmega2 f := div_pos a2 hs
  have h : wenoOmega0 f + wenoOmega1 f + wenoOmega2 f = 1 := by
    unfold wenoOmega0 wenoOmega1 wenoOmega2
    rw [← add_div, ← add_div, div_self (ne_of_gt hs)]
  refine ⟨_, _, _, h0, h1, h2, h, rfl, ?_, ?_⟩
  · have b0 := min_le_left (wenoQ0 f) (min (wenoQ1 f) (wenoQ2 f))
    have b1 := (min_le_right (wenoQ0 f) (min (wenoQ1 f) (wenoQ2 f))).trans (min_le_left _ _)
    have b2 := (min_le_right (wenoQ0 f) (min (wenoQ1 f) (wenoQ2 f))).trans (min_le_right _ _)
    generalize min (wenoQ0 f) (min (wenoQ1 f) (wenoQ2 f)) = m at b0 b1 b2 ⊢
    unfold weno5
    calc m = wenoOmega0 f * m + wenoOmega1 f * m + wenoOmega2 f * m := by rw [← add_mul, ← add_mul, h, one_mul]
      _ ≤ _ := add_le_add (add_le_add (mul_le_mul_of_nonneg_left b0 h0.le) (mul_le_mul_of_nonneg_left b1 h1.le)) (mul_le_mul_of_nonneg_left b2 h2.le)
  · have b0 := le_max_left (wenoQ0 f) (max (wenoQ1 f) (wenoQ2 f))
    have b1 := (le_max_left (wenoQ1 f) (wenoQ2 f)).trans (le_max_right (wenoQ0 f) _)
    have b2 := (le_max_right (wenoQ1 f) (wenoQ2 f)).trans (le_max_right (wenoQ0 f) _)
    generalize max (wenoQ0 f) (max (wenoQ1 f) (wenoQ2 f)) = m at b0 b1 b2 ⊢
    unfold weno5
    calc _ ≤ wenoOmega0 f * m + wenoOmega1 f * m + wenoOmega2 f * m :=
          add_le_add (add_le_add (mul_le_mul_of_nonneg_left b0 h0.le) (mul_le_mul_of_nonneg_left b1 h1.le)) (mul_le_mul_of_nonneg_left b2 h2.le)
      _ = m := by rw [← add_mul, ← add_mul, h, one_mul]

/-- C47: if the three candidates agree, so does the result. -/
theorem weno5_of_eq (f : Five R) (v : R) (h0 : wenoQ0 f = v) (h1 : wenoQ1 f = v) (h2 : wenoQ2 f = v) : weno5 f = v := by
  obtain ⟨w0, w1, w2, -, -, -, hs, -, hlo, hhi⟩ := C47_convex f
  rw [h0, h1, h2, min_self, min_self] at hlo
  rw [h0, h1, h2, max_self, max_self] at hhi
  exact le_antisymm hhi hlo

/-- C47: on the cell averages of a polynomial of degree at most two (in particular constants and affine data) the result is the value of the polynomial at the
right face of the central cell. -/
theorem C47_exact_quadratic (a b c : R) :
    weno5 ⟨average a b c (-2), average a b c (-1), average a b c 0, average a b c 1, average a b c 2⟩ = quadratic a b c (1 / 2) := by
  apply weno5_of_eq
  · unfold wenoQ0 average quadratic; field_simp; ring
  · unfold wenoQ1 average quadratic; field_simp; ring
  · unfold wenoQ2 average quadratic; field_simp; ring

/-- C47: when the three smoothness indicators are equal the result is the fifth-order linear reconstruction. -/
theorem C47_optimal (f : Five R) (h1 : wenoIS0 f = wenoIS1 f) (h2 : wenoIS1 f = wenoIS2 f) : weno5 f = optimal5 f := by
  have hp := (weno_alphas f).1
  have hne : (1 : R) / (wenoEps + wenoIS2 f) ^ 2 ≠ 0 := by
    intro h0
    have := (weno_alphas f).2.2
    unfold wenoAlpha at this
    rw [h0, mul_zero] at this
    exact lt_irrefl _ this
  have e : ∀ g : R, wenoAlpha g (wenoIS2 f) / (wenoAlpha (1 / 10) (wenoIS2 f) + wenoAlpha (6 / 10) (wenoIS2 f) + wenoAlpha (3 / 10) (wenoIS2 f)) = g := by
    intro g
    unfold wenoAlpha
    generalize (1 : R) / (wenoEps + wenoIS2 f) ^ 2 = t at hne ⊢
    have : (1 / 10 * t + 6 / 10 * t + 3 / 10 * t) = t := by ring
    rw [this, mul_div_assoc, div_self hne, mul_one]
  unfold weno5 wenoOmega0 wenoOmega1 wenoOmega2
  rw [h1, h2, e, e, e]
  unfold wenoQ0 wenoQ1 wenoQ2 optimal5
  field_simp
  ring

example : wenoIS0 (⟨1, 2, 3, 4, 5⟩ : Five ℚ) = wenoIS1 ⟨1, 2, 3, 4, 5⟩ ∧ wenoIS1 (⟨1, 2, 3, 4, 5⟩ : Five ℚ) = wenoIS2 ⟨1, 2, 3, 4, 5⟩ := by
  unfold wenoIS0 wenoIS1 wenoIS2; norm_num

/-- C47: this linear reconstruction is exact on the cell averages of polynomials of degree at most four (order five). -/
theorem C47_optimal_exact (a b c d e : R) :
    optimal5 ⟨average4 a b c d e (-2), average4 a b c d e (-1), average4 a b c d e 0, average4 a b c d e 1, average4 a b c d e 2⟩
      = a + b * (1 / 2) + c * (1 / 2) ^ 2 + d * (1 / 2) ^ 3 + e * (1 / 2) ^ 4 := by
  unfold optimal5 average4
  field_simp
  ring

/-- C47: adding a constant to the data adds it to the result. -/
theorem C47_translation (f : Five R) (s : R) : weno5 ⟨f.f0 + s, f.f1 + s, f.f2 + s, f.f3 + s, f.f4 + s⟩ = weno5 f + s := by
  obtain ⟨a0, a1, a2⟩ := weno_alphas f
  have hs : 0 < wenoAlpha (1 / 10) (wenoIS0 f) + wenoAlpha (6 / 10) (wenoIS1 f) + wenoAlpha (3 / 10) (wenoIS2 f) := by linarith
  have h : wenoOmega0 f + wenoOmega1 f + wenoOmega2 f = 1 := by
    unfold wenoOmega0 wenoOmega1 wenoOmega2
    rw [← add_div, ← add_div, div_self (ne_of_gt hs)]
  have e0 : wenoIS0 (⟨f.f0 + s, f.f1 + s, f.f2 + s, f.f3 + s, f.f4 + s⟩ : Five R) = wenoIS0 f := by unfold wenoIS0; ring
  have e1 : wenoIS1 (⟨f.f0 + s, f.f1 + s, f.f2 + s, f.f3 + s, f.f4 + s⟩ : Five R) = wenoIS1 f := by unfold wenoIS1; ring
  have e2 : wenoIS2 (⟨f.f0 + s, f.f1 + s, f.f2 + s, f.f3 + s, f.f4 + s⟩ : Five R) = wenoIS2 f := by unfold wenoIS2; ring
  have o0 : wenoOmega0 (⟨f.f0 + s, f.f1 + s, f.f2 + s, f.f3 + s, f.f4 + s⟩ : Five R) = wenoOmega0 f := by unfold wenoOmega0; rw [e0, e1, e2]
  have o1 : wenoOmega1 (⟨f.f0 + s, f.f1 + s, f.f2 + s, f.f3 + s, f.f4 + s⟩ : Five R) = wenoOmega1 f := by unfold wenoOmega1; rw [e0, e1, e2]
  have o2 : wenoOmega2 (⟨f.f0 + s, f.f1 + s, f.f2 + s, f.f3 + s, f.f4 + s⟩ : Five R) = wenoOmega2 f := by unfold wenoOmega2; rw [e0, e1, e2]
  have q0 : wenoQ0 (⟨f.f0 + s, f.f1 + s, f.f2 + s, f.f3 + s, f.f4 + s⟩ : Five R) = wenoQ0 f + s := by unfold wenoQ0; field_simp; ring
  have q1 : wenoQ1 (⟨f.f0 + s, f.f1 + s, f.f2 + s, f.f3 + s, f.f4 + s⟩ : Five R) = wenoQ1 f + s := by unfold wenoQ1; field_simp; ring
  have q2 : wenoQ2 (⟨f.f0 + s, f.f1 + s, f.f2 + s, f.f3 + s, f.f4 + s⟩ : Five R) = wenoQ2 f + s := by unfold wenoQ2; field_simp; ring
  unfold weno5
  rw [o0, o1, o2, q0, q1, q2]
  calc _ = wenoOmega0 f * wenoQ0 f + wenoOmega1 f * wenoQ1 f + wenoOmega2 f * wenoQ2 f + (wenoOmega0 f + wenoOmega1 f + wenoOmega2 f) * s := by ring
    _ = _ := by rw [h, one_mul]

/-- C47: the convection flux with WENO5 is exact on a constant field, whatever the sign of the velocity, and on a quadratic field it is the velocity times the value at the face between the
cells 0 and 1 of the stencil (at 1/2). -/
theorem C47_convection (v a b c : R) :
    wenoLinFlux v (fun j : Fin 6 => average a b c ((j.val : R) - 2)) = v * quadratic a b c (1 / 2) := by
  unfold wenoLinFlux
  split
  · apply weno5_of_eq
    · unfold wenoQ0 average quadratic; push_cast; field_simp; simp; ring
    · unfold wenoQ1 average quadratic; push_cast; field_simp; simp; ring
    · unfold wenoQ2 average quadratic; push_cast; field_simp; simp; ring
  · apply weno5_of_eq
    · unfold wenoQ0 average quadratic; push_cast; field_simp; simp; ring
    · unfold wenoQ1 average quadratic; push_cast; field_simp; simp; ring
    · unfold wenoQ2 average quadratic; push_cast; field_simp; simp; ring

/-- C47: on a constant field the flux of the nonlinear convection is the square of the constant. -/
theorem C47_convection_nonlinear (a : R) : wenoNonlinFlux (fun _ => a) = a * a := by
  unfold wenoNonlinFlux
  split
  · apply weno5_of_eq
    · unfold wenoQ0; field_simp; ring
    · unfold wenoQ1; field_simp; ring
    · unfold wenoQ2; field_simp; ring
  · apply weno5_of_eq
    · unfold wenoQ0; field_simp; ring
    · unfold wenoQ1; field_simp; ring
    · unfold wenoQ2; field_simp; ring

/-- The smoothness indicators of Jiang and Shu: for the quadratic polynomial `a + b x + c x²` whose averages are the data of the three cells of a candidate, the integral on the central cell of the squares of the first
and of the second derivative, `b² + 13/3 c²`. -/
theorem weno_smoothness (a b c x y : R) :
    wenoIS0 ⟨average a b c (-2), average a b c (-1), average a b c 0, x, y⟩ = b ^ 2 + 13 / 3 * c ^ 2 ∧
    wenoIS1 ⟨x, average a b c (-1), average a b c 0, average a b c 1, y⟩ = b ^ 2 + 13 / 3 * c ^ 2 ∧
    wenoIS2 ⟨x, y, average a b c 0, average a b c 1, average a b c 2⟩ = b ^ 2 + 13 / 3 * c ^ 2 := by
  refine ⟨?_, ?_, ?_⟩
  · unfold wenoIS0 average; field_simp; ring
  · unfold wenoIS1 average; field_simp; ring
  · unfold wenoIS2 average; field_simp; ring

/-- C47: what the reconstruction is, for all data: `P0`, `P1`, `P2` being the quadratic polynomials whose averages are the data of the cells -2, -1, 0, of the cells -1, 0, 1 and of the cells 0, 1, 2, the result is the mean
of their values at the right face of the cell 0 with the weights `γ / (10⁻⁶ + β)²`, `γ` being 1/10, 6/10, 3/10 and `β` the integral on the cell 0 of the squares of the derivatives of the polynomial. -/
theorem C47_weights (f : Five R) (a0 b0 c0 a1 b1 c1 a2 b2 c2 : R)
    (h0 : average a0 b0 c0 (-2) = f.f0 ∧ average a0 b0 c0 (-1) = f.f1 ∧ average a0 b0 c0 0 = f.f2)
    (h1 : average a1 b1 c1 (-1) = f.f1 ∧ average a1 b1 c1 0 = f.f2 ∧ average a1 b1 c1 1 = f.f3)
    (h2 : average a2 b2 c2 0 = f.f2 ∧ average a2 b2 c2 1 = f.f3 ∧ average a2 b2 c2 2 = f.f4) :
    let w : R → R → R → R := fun g b c => g / (1 / 10 ^ 6 + (b ^ 2 + 13 / 3 * c ^ 2)) ^ 2
    0 < w (1 / 10) b0 c0 ∧ 0 < w (6 / 10) b1 c1 ∧ 0 < w (3 / 10) b2 c2 ∧
    weno5 f = (w (1 / 10) b0 c0 * quadratic a0 b0 c0 (1 / 2) + w (6 / 10) b1 c1 * quadratic a1 b1 c1 (1 / 2) + w (3 / 10) b2 c2 * quadratic a2 b2 c2 (1 / 2)) /
      (w (1 / 10) b0 c0 + w (6 / 10) b1 c1 + w (3 / 10) b2 c2) := by
  intro w
  have hw : ∀ g is b c : R, is = b ^ 2 + 13 / 3 * c ^ 2 → wenoAlpha g is = w g b c := by
    intro g is b c h
    show g * (1 / (wenoEps + is) ^ 2) = g / (1 / 10 ^ 6 + (b ^ 2 + 13 / 3 * c ^ 2)) ^ 2
    rw [h, mul_one_div]
    rfl
  obtain ⟨x0, x1, x2, x3, x4⟩ := f
  simp only at h0 h1 h2
  have i0 : wenoIS0 (⟨x0, x1, x2, x3, x4⟩ : Five R) = b0 ^ 2 + 13 / 3 * c0 ^ 2 := by
    rw [← h0.1, ← h0.2.1, ← h0.2.2]; exact (weno_smoothness a0 b0 c0 _ _).1
  have i1 : wenoIS1 (⟨x0, x1, x2, x3, x4⟩ : Five R) = b1 ^ 2 + 13 / 3 * c1 ^ 2 := by
    rw [← h1.1, ← h1.2.1, ← h1.2.2]; exact (weno_smoothness a1 b1 c1 _ _).2.1
  have i2 : wenoIS2 (⟨x0, x1, x2, x3, x4⟩ : Five R) = b2 ^ 2 + 13 / 3 * c2 ^ 2 := by
    rw [← h2.1, ← h2.2.1, ← h2.2.2]; exact (weno_smoothness a2 b2 c2 _ _).2.2
  have q0 : wenoQ0 (⟨x0, x1, x2, x3, x4⟩ : Five R) = quadratic a0 b0 c0 (1 / 2) := by
    rw [← h0.1, ← h0.2.1, ← h0.2.2]; unfold wenoQ0 average quadratic; field_simp; ring
  have q1 : wenoQ1 (⟨x0, x1, x2, x3, x4⟩ : Five R) = quadratic a1 b1 c1 (1 / 2) := by
    rw [← h1.1, ← h1.2.1, ← h1.2.2]; unfold wenoQ1 average quadratic; field_simp; ring
  have q2 : wenoQ2 (⟨x0, x1, x2, x3, x4⟩ : Five R) = quadratic a2 b2 c2 (1 / 2) := by
    rw [← h2.1, ← h2.2.1, ← h2.2.2]; unfold wenoQ2 average quadratic; field_simp; ring
  obtain ⟨p0, p1, p2⟩ := weno_alphas (⟨x0, x1, x2, x3, x4⟩ : Five R)
  rw [hw _ _ _ _ i0] at p0
  rw [hw _ _ _ _ i1] at p1
  rw [hw _ _ _ _ i2] at p2
  refine ⟨p0, p1, p2, ?_⟩
  unfold weno5 wenoOmega0 wenoOmega1 wenoOmega2
  rw [hw _ _ _ _ i0, hw _ _ _ _ i1, hw _ _ _ _ i2, q0, q1, q2]
  generalize w (1 / 10) b0 c0 = w0
  generalize w (6 / 10) b1 c1 = w1
  generalize w (3 / 10) b2 c2 = w2
  ring

/-- All data have such polynomials. -/
theorem C47_candidates (f : Five R) : ∃ a0 b0 c0 a1 b1 c1 a2 b2 c2 : R,
    (average a0 b0 c0 (-2) = f.f0 ∧ average a0 b0 c0 (-1) = f.f1 ∧ average a0 b0 c0 0 = f.f2) ∧
    (average a1 b1 c1 (-1) = f.f1 ∧ average a1 b1 c1 0 = f.f2 ∧ average a1 b1 c1 1 = f.f3) ∧
    (average a2 b2 c2 0 = f.f2 ∧ average a2 b2 c2 1 = f.f3 ∧ average a2 b2 c2 2 = f.f4) := by
  refine ⟨f.f2 - (f.f0 - 2 * f.f1 + f.f2) / 24, f.f2 - f.f1 + (f.f0 - 2 * f.f1 + f.f2) / 2, (f.f0 - 2 * f.f1 + f.f2) / 2,
    f.f2 - (f.f1 - 2 * f.f2 + f.f3) / 24, (f.f3 - f.f1) / 2, (f.f1 - 2 * f.f2 + f.f3) / 2,
    f.f2 - (f.f2 - 2 * f.f3 + f.f4) / 24, f.f3 - f.f2 - (f.f2 - 2 * f.f3 + f.f4) / 2, (f.f2 - 2 * f.f3 + f.f4) / 2, ?_, ?_, ?_⟩
  · refine ⟨?_, ?_, ?_⟩ <;> unfold average <;> field_simp <;> ring
  · refine ⟨?_, ?_, ?_⟩ <;> unfold average <;> field_simp <;> ring
  · refine ⟨?_, ?_, ?_⟩ <;> unfold average <;> field_simp <;> ring

/-- C47: the flux of the nonlinear convection is exact when the squares of the values are the averages of a polynomial of degree at most two, whatever the sign of the field. -/
theorem C47_nonlinear_exact (u : Fin 6 → R) (a b c : R) (h : ∀ j : Fin 6, u j * u j = average a b c ((j.val : R) - 2)) : wenoNonlinFlux u = quadratic a b c (1 / 2) := by
  unfold wenoNonlinFlux
  rw [h 0, h 1, h 2, h 3, h 4, h 5]
  split
  · apply weno5_of_eq
    · unfold wenoQ0 average quadratic; push_cast; field_simp; simp; ring
    · unfold wenoQ1 average quadratic; push_cast; field_simp; simp; ring
    · unfold wenoQ2 average quadratic; push_cast; field_simp; simp; ring
  · apply weno5_of_eq
    · unfold wenoQ0 average quadratic; push_cast; field_simp; simp; ring
    · unfold wenoQ1 average quadratic; push_cast; field_simp; simp; ring
    · unfold wenoQ2 average quadratic; push_cast; field_simp; simp; ring

/-- The hypothesis is met by affine fields, of both signs. -/
example (s : ℚ) : ∀ j : Fin 6, ((j.val : ℚ) - 2 + s) * ((j.val : ℚ) - 2 + s) = average (s ^ 2 - 1 / 12) (2 * s) 1 ((j.val : ℚ) - 2) := by
  intro j
  unfold average
  ring

/-- C47: the fluxes are upwind: the value of the last cell of the stencil has no effect when the velocity goes to the right, that of the first cell when it goes to the left. -/
theorem C47_upwind (v : R) (u u' : Fin 6 → R) :
    (0 ≤ v → (∀ j : Fin 6, j ≠ 5 → u j = u' j) → wenoLinFlux v u = wenoLinFlux v u') ∧
    (v < 0 → (∀ j : Fin 6, j ≠ 0 → u j = u' j) → wenoLinFlux v u = wenoLinFlux v u') ∧
    (0 ≤ u 2 → (∀ j : Fin 6, j ≠ 5 → u j = u' j) → wenoNonlinFlux u = wenoNonlinFlux u') ∧
    (u 2 < 0 → (∀ j : Fin 6, j ≠ 0 → u j = u' j) → wenoNonlinFlux u = wenoNonlinFlux u') := by
  refine ⟨fun hv h => ?_, fun hv h => ?_, fun hv h => ?_, fun hv h => ?_⟩
  · unfold wenoLinFlux
    rw [if_pos hv, if_pos hv, h 0 (by decide), h 1 (by decide), h 2 (by decide), h 3 (by decide), h 4 (by decide)]
  · unfold wenoLinFlux
    rw [if_neg (not_le.2 hv), if_neg (not_le.2 hv), h 5 (by decide), h 1 (by decide), h 2 (by decide), h 3 (by decide), h 4 (by decide)]
  · unfold wenoNonlinFlux
    rw [if_pos hv, if_pos (by rw [← h 2 (by decide)]; exact hv), h 0 (by decide), h 1 (by decide), h 2 (by decide), h 3 (by decide), h 4 (by decide)]
  · unfold wenoNonlinFlux
    rw [if_neg (not_le.2 hv), if_neg (by rw [← h 2 (by decide)]; exact not_le.2 hv), h 5 (by decide), h 1 (by decide), h 2 (by decide), h 3 (by decide), h 4 (by decide)]

end Samurai
