import Mathlib.Analysis.Matrix.Spectrum
import Mathlib.Analysis.SpecialFunctions.Log.Basic
import Mathlib.Analysis.SpecialFunctions.Sqrt
import Verif.Model.Py
import Verif.Model.States

/-!
# Functions of density matrices (`qadence/states.py:567-722`)

A batch is the list of its matrices. The decompositions of torch are parameters of the model.
-/

namespace Qadence.Density

open Matrix

variable {d : ℕ}

/-- A `d × d` matrix. -/
abbrev Mat (d : ℕ) : Type := Matrix (Fin d) (Fin d) ℂ

/-- `torch.linalg.eigvalsh` and `torch.linalg.eigh` of one matrix. -/
structure LinAlg (d : ℕ) where
  eigvalsh : Mat d → Fin d → ℝ
  eigh : Mat d → (Fin d → ℝ) × Mat d

/-- `purity` (qadence/states.py:656-670) of one matrix. -/
noncomputable def purityRow (T : LinAlg d) (order : ℕ) (rho : Mat d) : ℝ := ∑ i, T.eigvalsh rho i ^ order

/-- `purity` (qadence/states.py:656-670). -/
noncomputable def purity (T : LinAlg d) (rhos : List (Mat d)) (order : ℕ) : List ℝ := rhos.map (purityRow T order)

/-- Normalised eigenvalues (qadence/states.py:637-641); a trace of zero gives zeros here, not a number in the code. -/
noncomputable def normalizedEigs (T : LinAlg d) (rho : Mat d) (i : Fin d) : ℝ :=
  T.eigvalsh rho i / ∑ j, T.eigvalsh rho j

/-- `valid_eigenvalues[valid_eigenvalues < eps] = eps` (qadence/states.py:643-645). -/
noncomputable def validEig (eps x : ℝ) : ℝ := if x < eps then eps else x

/-- `von_neumann_entropy` (qadence/states.py:620-653) of one matrix. -/
noncomputable def entropyRow (T : LinAlg d) (eps : ℝ) (rho : Mat d) : ℝ :=
  -∑ i, validEig eps (normalizedEigs T rho i) * Real.log (validEig eps (normalizedEigs T rho i)) / Real.log 2

/-- `von_neumann_entropy` (qadence/states.py:620-653). -/
noncomputable def entropy (T : LinAlg d) (rhos : List (Mat d)) (eps : ℝ) : List ℝ := rhos.map (entropyRow T eps)

/-- The square root of a matrix (qadence/states.py:688-705). -/
noncomputable def sqrtMat (T : LinAlg d) (rho : Mat d) : Mat d :=
  (T.eigh rho).2 * (diagonal (fun i => ((Real.sqrt (max ((T.eigh rho).1 i) 0) : ℝ) : ℂ)) * ((T.eigh rho).2)ᵀ.map star)

/-- The fidelity of two matrices (qadence/states.py:707-722). -/
noncomputable def fidelityRow (T : LinAlg d) (rho sigma : Mat d) : ℝ :=
  ∑ i, Real.sqrt (max (T.eigvalsh (sqrtMat T rho * (sigma * sqrtMat T rho)) i) 0)

/-- `fidelity` (qadence/states.py:673-722): `sigma[i]` is taken for every `i` in the range of the batch of `rho`. -/
noncomputable def fidelity (T : LinAlg d) (rhos sigmas : List (Mat d)) : Except PyErr (List ℝ) :=
  rhos.zipIdx.mapM (fun p => match sigmas[p.2]? with
    | some sigma => .ok (fidelityRow T p.1 sigma)
    | none => .error .indexError)

/-- Torch broadcasting along the batch. -/
def broadcast {α : Type} (s0 s1 : List α) : Except PyErr (List (α × α)) :=
  if s0.length = s1.length then .ok (s0.zip s1)
  else match s0, s1 with
    | [a], _ => .ok (s1.map fun b => (a, b))
    | _, [b] => .ok (s0.map fun a => (a, b))
    | _, _ => .error .runtimeError

/-- `overlap` (qadence/states.py:567-587, qadence/overlap.py:157-167). -/
noncomputable def overlap (s0 s1 : List (List ℂ)) : Except PyErr (List ℝ) := do
  let ps ← broadcast s0 s1
  return ps.map fun p => States.overlapExact p.1 p.2

open Classical in
/-- `equivalent_state` (qadence/states.py:590-595). -/
noncomputable def equivalentState (s0 s1 : List (List ℂ)) (rtol atol : ℝ) : Except PyErr Bool := do
  let fs ← overlap s0 s1
  return fs.all fun f => decide (|f - 1| ≤ atol + rtol * |(1 : ℝ)|)

end Qadence.Density
