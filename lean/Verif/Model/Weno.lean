/-
Model of the WENO5 reconstruction (weno_impl.hpp) and of the convection fluxes that use it (convection_lin.hpp, convection_nonlin.hpp). `R` stands for `double`, without rounding.
For a vector-valued flux the operations are component by component, so a component is modelled.
-/
import Mathlib.Algebra.Field.Basic
import Mathlib.Algebra.Order.Field.Basic

namespace Samurai

variable {R : Type} [Field R]

/-- The five values `f[0] … f[4]`. -/
structure Five (R : Type) where
  f0 : R
  f1 : R
  f2 : R
  f3 : R
  f4 : R

/-- `q0` (weno_impl.hpp:39). -/
def wenoQ0 (f : Five R) : R := 1 / 3 * f.f0 - 7 / 6 * f.f1 + 11 / 6 * f.f2
/-- `q1` (weno_impl.hpp:40). -/
def wenoQ1 (f : Five R) : R := -1 / 6 * f.f1 + 5 / 6 * f.f2 + 1 / 3 * f.f3
/-- `q2` (weno_impl.hpp:41). -/
def wenoQ2 (f : Five R) : R := 1 / 3 * f.f2 + 5 / 6 * f.f3 - 1 / 6 * f.f4

/-- `IS0` (weno_impl.hpp:44). -/
def wenoIS0 (f : Five R) : R := 13 / 12 * (f.f0 - 2 * f.f1 + f.f2) ^ 2 + 1 / 4 * (f.f0 - 4 * f.f1 + 3 * f.f2) ^ 2
/-- `IS1` (weno_impl.hpp:45). -/
def wenoIS1 (f : Five R) : R := 13 / 12 * (f.f1 - 2 * f.f2 + f.f3) ^ 2 + 1 / 4 * (f.f1 - f.f3) ^ 2
/-- `IS2` (weno_impl.hpp:46). -/
def wenoIS2 (f : Five R) : R := 13 / 12 * (f.f2 - 2 * f.f3 + f.f4) ^ 2 + 1 / 4 * (3 * f.f2 - 4 * f.f3 + f.f4) ^ 2

/-- `eps` (weno_impl.hpp:34). -/
def wenoEps : R := 1 / 10 ^ 6

/-- `alpha0`, `alpha1`, `alpha2` (weno_impl.hpp:51-53); `pow(x, -2)` is `1 / x^2`. -/
def wenoAlpha (gamma is : R) : R := gamma * (1 / (wenoEps + is) ^ 2)

/-- `omega0` (weno_impl.hpp:51-59). -/
def wenoOmega0 (f : Five R) : R :=
  wenoAlpha (1 / 10) (wenoIS0 f) / (wenoAlpha (1 / 10) (wenoIS0 f) + wenoAlpha (6 / 10) (wenoIS1 f) + wenoAlpha (3 / 10) (wenoIS2 f))
/-- `omega1`. -/
def wenoOmega1 (f : Five R) : R :=
  wenoAlpha (6 / 10) (wenoIS1 f) / (wenoAlpha (1 / 10) (wenoIS0 f) + wenoAlpha (6 / 10) (wenoIS1 f) + wenoAlpha (3 / 10) (wenoIS2 f))
/-- `omega2`. -/
def wenoOmega2 (f : Five R) : R :=
  wenoAlpha (3 / 10) (wenoIS2 f) / (wenoAlpha (1 / 10) (wenoIS0 f) + wenoAlpha (6 / 10) (wenoIS1 f) + wenoAlpha (3 / 10) (wenoIS2 f))

/-- `compute_weno5_flux` (weno_impl.hpp:25-64). -/
def weno5 (f : Five R) : R := wenoOmega0 f * wenoQ0 f + wenoOmega1 f * wenoQ1 f + wenoOmega2 f * wenoQ2 f

/-- The flux of `make_convection_weno5(velocity)` (convection_lin.hpp:110-130) in a direction where the velocity is `v`; `u` gives the values of the field on the six cells
of the stencil `{-2, …, 3}`. -/
def wenoLinFlux [LinearOrder R] (v : R) (u : Fin 6 → R) : R :=
  if 0 ≤ v then weno5 ⟨u 0 * v, u 1 * v, u 2 * v, u 3 * v, u 4 * v⟩
  else weno5 ⟨u 5 * v, u 4 * v, u 3 * v, u 2 * v, u 1 * v⟩

/-- The flux of `make_convection_weno5()` (convection_nonlin.hpp:212-240) for a scalar field. -/
def wenoNonlinFlux [LinearOrder R] (u : Fin 6 → R) : R :=
  if 0 ≤ u 2 then weno5 ⟨u 0 * u 0, u 1 * u 1, u 2 * u 2, u 3 * u 3, u 4 * u 4⟩
  else weno5 ⟨u 5 * u 5, u 4 * u 4, u 3 * u 3, u 2 * u 2, u 1 * u 1⟩

end Samurai
