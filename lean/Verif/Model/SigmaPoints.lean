import Mathlib.Data.Matrix.Mul
import Mathlib.Analysis.Real.Sqrt
import Mathlib.Data.Real.Basic
import Mathlib.Analysis.SpecialFunctions.Trigonometric.Basic
import Mathlib.Algebra.BigOperators.Fin
import Mathlib.Data.Nat.Factorial.Basic

/-!
# Model of `mfs/classical_filters_smoothers/quadratures.py`

Arrays `(s, d)` are functions `Fin s → Fin d → ℝ`; vectorised integrands act point by point.
-/

namespace Mfs.Classical

open Matrix

/-- `rk4_m_cov`, `/repo/mfs/classical_filters_smoothers/quadratures.py:33-53`. -/
noncomputable def rk4MCov {d : ℕ} (ode : (Fin d → ℝ) → Matrix (Fin d) (Fin d) ℝ → (Fin d → ℝ) × Matrix (Fin d) (Fin d) ℝ)
    (m : Fin d → ℝ) (v : Matrix (Fin d) (Fin d) ℝ) (dt : ℝ) : (Fin d → ℝ) × Matrix (Fin d) (Fin d) ℝ :=
  let k1 := ode m v
  let k2 := ode (m + (dt / 2) • k1.1) (v + (dt / 2) • k1.2)
  let k3 := ode (m + (dt / 2) • k2.1) (v + (dt / 2) • k2.2)
  let k4 := ode (m + dt • k3.1) (v + dt • k3.2)
  (m + (dt / 6) • (k1.1 + (2 : ℝ) • k2.1 + (2 : ℝ) • k3.1 + k4.1), v + (dt / 6) • (k1.2 + (2 : ℝ) • k2.2 + (2 : ℝ) • k3.2 + k4.2))

/-- `rk4_m_cov_backward`, `/repo/mfs/classical_filters_smoothers/quadratures.py:56-79`. -/
noncomputable def rk4MCovBackward {d : ℕ}
    (ode : (Fin d → ℝ) → Matrix (Fin d) (Fin d) ℝ → (Fin d → ℝ) → Matrix (Fin d) (Fin d) ℝ → (Fin d → ℝ) × Matrix (Fin d) (Fin d) ℝ)
    (m : Fin d → ℝ) (v : Matrix (Fin d) (Fin d) ℝ) (mf : Fin d → ℝ) (vf : Matrix (Fin d) (Fin d) ℝ) (dt : ℝ) :
    (Fin d → ℝ) × Matrix (Fin d) (Fin d) ℝ :=
  let k1 := ode m v mf vf
  let k2 := ode (m + (dt / 2) • k1.1) (v + (dt / 2) • k1.2) mf vf
  let k3 := ode (m + (dt / 2) • k2.1) (v + (dt / 2) • k2.2) mf vf
  let k4 := ode (m + dt • k3.1) (v + dt • k3.2) mf vf
  (m + (dt / 6) • (k1.1 + (2 : ℝ) • k2.1 + (2 : ℝ) • k3.1 + k4.1), v + (dt / 6) • (k1.2 + (2 : ℝ) • k2.2 + (2 : ℝ) • k3.2 + k4.2))

/-- `SigmaPoints`, `/repo/mfs/classical_filters_smoothers/quadratures.py:82-108`, without the unused `wc`. -/
structure SigmaPoints (d : ℕ) where
  nPoints : ℕ
  w : Fin nPoints → ℝ
  xi : Fin nPoints → Fin d → ℝ

/-- `SigmaPoints.gen_sigma_points`, `/repo/mfs/classical_filters_smoothers/quadratures.py:196-199`. -/
def SigmaPoints.genSigmaPoints {d : ℕ} (sgps : SigmaPoints d) (m : Fin d → ℝ) (chol : Matrix (Fin d) (Fin d) ℝ) :
    Fin sgps.nPoints → Fin d → ℝ :=
  fun i => m + chol *ᵥ sgps.xi i

/-- `SigmaPoints.expectation`, `/repo/mfs/classical_filters_smoothers/quadratures.py:216-229`. -/
def SigmaPoints.expectation {d : ℕ} (sgps : SigmaPoints d) {V : Type} [AddCommMonoid V] [Module ℝ V]
    (evals : Fin sgps.nPoints → V) : V :=
  ∑ i, sgps.w i • evals i

/-- `SigmaPoints.expectation_from_nodes`, `/repo/mfs/classical_filters_smoothers/quadratures.py:201-214`. -/
def SigmaPoints.expectationFromNodes {d : ℕ} (sgps : SigmaPoints d) {V : Type} [AddCommMonoid V] [Module ℝ V]
    (f : (Fin d → ℝ) → V) (chi : Fin sgps.nPoints → Fin d → ℝ) : V :=
  ∑ i, sgps.w i • f (chi i)

/-- `SigmaPoints.cubature`, `/repo/mfs/classical_filters_smoothers/quadratures.py:136-148`: row `i < d` of the points is
`√d e_i`, row `d + i` is `-√d e_i`. -/
noncomputable def SigmaPoints.cubature (d : ℕ) : SigmaPoints d where
  nPoints := 2 * d
  w := fun _ => 1 / ((2 * d : ℕ) : ℝ)
  xi := fun r j => Real.sqrt d * (if (r : ℕ) < d then (if (r : ℕ) = j then 1 else 0) else (if (r : ℕ) - d = j then -1 else 0))

/-- `_gen_hermite_poly_coeff`, `/repo/mfs/classical_filters_smoothers/quadratures.py:110-134`: integer coefficients, highest
degree first; `H.append` for `i = 2, …, order`. -/
def genHermitePolyCoeff (order : ℕ) : List (List ℤ) :=
  (List.range' 2 (order - 1)).foldl (fun H (i : ℕ) =>
    H ++ [List.zipWith (fun a b => 2 * a - 2 * ((i : ℤ) - 1) * b) (H.getD (i - 1) [] ++ [0]) ([0, 0] ++ H.getD (i - 2) [])]) [[1], [2, 0]]

/-- `np.polyval(coeffs, x)` (Horner). -/
noncomputable def polyval (coeffs : List ℤ) (x : ℝ) : ℝ := coeffs.foldl (fun (acc : ℝ) (c : ℤ) => acc * x + c) 0

/-- one-dimensional weights, `/repo/mfs/classical_filters_smoothers/quadratures.py:172-176`. -/
noncomputable def ghWeight1d (order : ℕ) (r : ℝ) : ℝ :=
  2 ^ (order - 1) * (order.factorial : ℝ) * Real.sqrt Real.pi
    / ((order : ℝ) ^ 2 * polyval ((genHermitePolyCoeff order).getD (order - 1) []) r ^ 2)

/-- one row of the roll table, `/repo/mfs/classical_filters_smoothers/quadratures.py:179-187`: row `d - i - 1` is `order ^ i`
copies of `[0] * order ^ (d - i - 1) ++ [1] * order ^ (d - i - 1) ++ …`. -/
def rollRow (d order i : ℕ) : List ℕ :=
  (List.replicate (order ^ i) ((List.range order).flatMap fun j => List.replicate (order ^ (d - i - 1)) j)).flatten

/-- the roll table: entry in row `r` and column `c`, with `i = d - 1 - r`. -/
def rollTable (d order r c : ℕ) : ℕ := (rollRow d order (d - 1 - r)).getD c 0

/-- `SigmaPoints.gauss_hermite`, `/repo/mfs/classical_filters_smoothers/quadratures.py:154-194`. `roots` is
`np.flip(np.roots(hermite_coeff[-1]))`. -/
noncomputable def SigmaPoints.gaussHermite (d order : ℕ) (roots : ℕ → ℝ) : SigmaPoints d where
  nPoints := order ^ d
  w := fun c => 1 / Real.sqrt Real.pi ^ d * ∏ r : Fin d, ghWeight1d order (roots (rollTable d order r c))
  xi := fun c r => Real.sqrt 2 * roots (rollTable d order r c)

/-- `gaussian_expectation`, `/repo/mfs/classical_filters_smoothers/quadratures.py:232-272` (`force_shape` only reshapes). -/
noncomputable def gaussianExpectation (d order : ℕ) (roots : ℕ → ℝ) {V : Type} [AddCommMonoid V] [Module ℝ V]
    (ms : List (Fin d → ℝ)) (chols : List (Matrix (Fin d) (Fin d) ℝ)) (f : (Fin d → ℝ) → V) : List V :=
  List.zipWith (fun m chol =>
    (SigmaPoints.gaussHermite d order roots).expectationFromNodes f ((SigmaPoints.gaussHermite d order roots).genSigmaPoints m chol))
    ms chols

end Mfs.Classical
