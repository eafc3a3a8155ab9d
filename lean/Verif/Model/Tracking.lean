import Verif.Model.Utils
import Verif.Model.MomentsND
import Verif.Model.GaussianSum
import Verif.Model.FilterND
import Mathlib.Analysis.SpecialFunctions.Trigonometric.Arctan

/-!
# The notebook `/repo/examples/2d_bearing_only.ipynb`

Cells are counted from zero. Vectors of the simulation are functions `Fin 2 → ℝ`; the nodes of the filter are lists. The random draws are arguments.
-/

namespace Mfs.Tracking

open Matrix

/-- `A`, `/repo/examples/2d_bearing_only.ipynb`, cell 5. -/
def trackA : Matrix (Fin 2) (Fin 2) ℝ := !![0, 1; 0, 0]

/-- `B`, `/repo/examples/2d_bearing_only.ipynb`, cell 5. -/
def trackB : Matrix (Fin 2) (Fin 2) ℝ := !![0, 0; 0, 1]

/-- `dt = 0.01`, `/repo/examples/2d_bearing_only.ipynb`, cell 5. -/
noncomputable def trackDt : ℝ := 0.01

/-- `F` of `F, Q = discretise_lti_sde(A, B, dt)`, `/repo/examples/2d_bearing_only.ipynb`, cell 5. -/
noncomputable def trackF : Matrix (Fin 2) (Fin 2) ℝ := (Utils.discretiseLtiSde trackA trackB trackDt).1

/-- `Q` of `F, Q = discretise_lti_sde(A, B, dt)`, `/repo/examples/2d_bearing_only.ipynb`, cell 5. -/
noncomputable def trackQ : Matrix (Fin 2) (Fin 2) ℝ := (Utils.discretiseLtiSde trackA trackB trackDt).2

/-- the Gaussian sum of the initial state, `/repo/examples/2d_bearing_only.ipynb`, cell 5. -/
noncomputable def trackInit : List (MomentsND.Component 2) :=
  [{ mean := ![1, 0], cov := (0.01 : ℝ) • !![1, 0; 0, 1], weight := 0.7 }, { mean := ![1, 1], cov := (0.01 : ℝ) • !![1, 0; 0, 1], weight := 0.3 }]

/-- `xi = 0.1`, `/repo/examples/2d_bearing_only.ipynb`, cell 5. -/
noncomputable def trackXi : ℝ := 0.1

/-- `jnp.arctan2(y, x)`: the angle of the point `(x, y)`; zero at the origin. Signed zeros are not modelled. -/
noncomputable def arctan2 (y x : ℝ) : ℝ :=
  if 0 < x then Real.arctan (y / x)
  else if x < 0 then (if 0 ≤ y then Real.arctan (y / x) + Real.pi else Real.arctan (y / x) - Real.pi)
  else if 0 < y then Real.pi / 2 else if y < 0 then -(Real.pi / 2) else 0

/-- `scan_body` of `simulate`, `/repo/examples/2d_bearing_only.ipynb`, cell 5. -/
noncomputable def scanBody (B : Backend) (x : Fin 2 → ℝ) (elem : (Fin 2 → ℝ) × ℝ) : (Fin 2 → ℝ) × ((Fin 2 → ℝ) × ℝ) :=
  let x := trackF *ᵥ x + B.chol (symmetrize trackQ) *ᵥ elem.1
  let y := arctan2 (x 1) (x 0) + Real.sqrt trackXi * elem.2
  (x, (x, y))

/-- `simulate`, `/repo/examples/2d_bearing_only.ipynb`, cell 5, from the initial state and the normal draws. -/
noncomputable def simulate (B : Backend) (x0 : Fin 2 → ℝ) (rnds : List ((Fin 2 → ℝ) × ℝ)) : List ((Fin 2 → ℝ) × ℝ) :=
  (scan (scanBody B) x0 rnds).2

/-- `state_cond_central_moments`, `/repo/examples/2d_bearing_only.ipynb`, cell 7: `cms[index]` for a position `index`. -/
noncomputable def stateCondCentralMoments (multiIndices : List (List ℕ)) (x : List ℝ) (index : ℕ) (mean : List ℝ) : ℝ :=
  let condMean := trackF *ᵥ fun j : Fin 2 => x.getD j 0
  let cms := multiIndices.map fun α => MomentsND.rawMomentsMvnKan (condMean - fun j : Fin 2 => mean.getD j 0) trackQ fun j : Fin 2 => α.getD j 0
  jget cms index

/-- `state_cond_mean`, `/repo/examples/2d_bearing_only.ipynb`, cell 7. -/
noncomputable def stateCondMean (x : List ℝ) : List ℝ := List.ofFn (trackF *ᵥ fun j : Fin 2 => x.getD j 0)

/-- `measurement_cond_pdf`, `/repo/examples/2d_bearing_only.ipynb`, cell 7. -/
noncomputable def measurementCondPdf (y : ℝ) (x : List ℝ) : ℝ :=
  GaussianSum.normPdf y (arctan2 (x.getD 1 0) (x.getD 0 0)) (Real.sqrt trackXi)

/-- `moment_filter`, `/repo/examples/2d_bearing_only.ipynb`, cell 7, with the initial moments of cell 5; `order` are the two tables of cell 3. -/
noncomputable def momentFilter (B : Backend) (ys : List ℝ) (order : List (List ℕ) × List (List (List ℤ))) :
    Except String (List (List ℝ × List ℝ) × ℝ) :=
  let initCond := MomentsND.GaussianSumND.new trackInit (order.1.map fun α => fun j : Fin 2 => α.getD j 0)
  FilterND.filterCms B (.index (stateCondCentralMoments order.1)) stateCondMean measurementCondPdf ys order initCond.cms (List.ofFn initCond.mean)

end Mfs.Tracking
