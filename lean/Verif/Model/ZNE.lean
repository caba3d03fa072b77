import Mathlib.Algebra.Polynomial.Eval.Degree
import Mathlib.Data.Real.Sqrt
import Verif.Model.Py

/-!
# Zero-noise extrapolation (`qadence/mitigations/analog_zne.py`)

Floating point numbers are real numbers.
-/

namespace Qadence.ZNE

open Polynomial

/-- Sum of squared residuals of a polynomial. -/
noncomputable def residual (xs ys : List ℝ) (P : ℝ[X]) : ℝ := ((xs.zip ys).map (fun p => (P.eval p.1 - p.2) ^ 2)).sum

/-- Square of the norm of the coefficients after dividing the columns of the Vandermonde matrix by their norms; this is
what `numpy.polyfit` minimises among the best fits. -/
noncomputable def scaledNorm (xs : List ℝ) (d : ℕ) (P : ℝ[X]) : ℝ :=
  ∑ j ∈ Finset.range (d + 1), (xs.map (fun x => (x ^ j) ^ 2)).sum * P.coeff j ^ 2

/-- `np.polyfit(xs, ys, d)`: a best fit of degree at most `d` with the smallest scaled coefficients (numpy solves the
least squares problem of the scaled Vandermonde matrix with `lstsq`). -/
structure IsPolyfit (xs ys : List ℝ) (d : ℕ) (P : ℝ[X]) : Prop where
  degree : P.natDegree ≤ d
  best : ∀ Q : ℝ[X], Q.natDegree ≤ d → residual xs ys P ≤ residual xs ys Q
  least : ∀ Q : ℝ[X], Q.natDegree ≤ d → residual xs ys Q = residual xs ys P → scaledNorm xs d P ≤ scaledNorm xs d Q

/-- `s[p]`. -/
def pyGet (s : List ℝ) (p : ℕ) : Except PyErr ℝ :=
  match s[p]? with
  | some v => .ok v
  | none => .error .indexError

/-- One data set: the list of results for every noise level, each with one number per parameter
(qadence/mitigations/analog_zne.py:27-37); `fit` is `np.polyfit`. -/
noncomputable def zneDataset (fit : List ℝ → List ℝ → ℕ → ℝ[X]) (levels : List ℝ) (dataset : List (List ℝ)) :
    Except PyErr (List ℝ) := do
  let first ← match dataset with
    | s :: _ => .ok s
    | [] => .error .indexError
  (List.range first.length).mapM fun p => do
    let data ← dataset.mapM (fun s => pyGet s p)
    if data.length ≠ levels.length then .error .typeError
    else return (fit levels data (levels.length - 1)).eval 0

/-- `zne` (qadence/mitigations/analog_zne.py:24-39). -/
noncomputable def zne (fit : List ℝ → List ℝ → ℕ → ℝ[X]) (levels : List ℝ) (datasets : List (List (List ℝ))) :
    Except PyErr (List (List ℝ)) :=
  datasets.mapM (zneDataset fit levels)

end Qadence.ZNE
