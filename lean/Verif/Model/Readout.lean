import Mathlib.Data.Real.Basic
import Mathlib.Algebra.BigOperators.Fin
import Mathlib.GroupTheory.Perm.Basic
import Verif.Model.Py
import Verif.Model.PSR

/-!
# Readout mitigation (`qadence/mitigations/readout.py`)

Floating point numbers are real numbers.
-/

namespace Qadence.Readout

/-- The loop of `mle_solve` (qadence/mitigations/readout.py:34-43) over the rest of the sorted vector: number of entries
set to zero, the accumulated sum, and the entries from the breakpoint on. -/
noncomputable def mleLoop (negSum : ℝ) : List ℝ → ℕ × ℝ × List ℝ
  | [] => (0, negSum, [])
  | a :: l =>
    if a + negSum / ((a :: l).length : ℝ) < 0 then
      let r := mleLoop (negSum + a) l
      (r.1 + 1, r.2.1, r.2.2)
    else (0, negSum, a :: l)

/-- `p_sort` at the end of `mle_solve` (qadence/mitigations/readout.py:31-46). If the loop does not stop, the breakpoint
is the last index. -/
noncomputable def mleSorted (p : List ℝ) : List ℝ :=
  let (k, s, rest) := mleLoop 0 p
  if rest = [] then (if k = 0 then [] else List.replicate (k - 1) 0 ++ [0 + s / 1])
  else List.replicate k 0 ++ rest.map (fun x => x + s / (rest.length : ℝ))

/-- `mle_solve` (qadence/mitigations/readout.py:23-51). `σ` is the result of `argsort`; its own `argsort` is the
inverse permutation. -/
noncomputable def mleSolve {n : ℕ} (σ : Equiv.Perm (Fin n)) (p : Fin n → ℝ) (j : Fin n) : ℝ :=
  (mleSorted (List.ofFn (p ∘ σ))).getD (σ.symm j) 0

/-- `renormalize_counts` (qadence/mitigations/readout.py:54-66). With a zero sum numpy divides by zero and goes on with
undefined integers; this is represented as an error. -/
noncomputable def renormalizeCounts (counts : List ℤ) (nShots : ℤ) : Except PyErr (List ℤ) :=
  if counts.sum ≠ nShots then
    let shifted := counts.map (fun c => c - (counts.sum - nShots))
    let clipped := shifted.map (fun c => if c < 0 then 0 else c)
    if clipped.sum = 0 then .error .zeroDivisionError
    else .ok (clipped.map (fun c : ℤ => PSR.rint ((c : ℝ) * ((nShots : ℝ) / clipped.sum))))
  else .ok counts

/-- `np.argmax`: the first position of the largest entry. -/
def argmax (l : List ℤ) : ℕ := l.findIdx (fun c => l.all (fun d => d ≤ c))

/-- From corrected probabilities to a counter (qadence/mitigations/readout.py:143-161). The keys are the positions of
the bitstrings. -/
noncomputable def toCounter (pCorr : List ℝ) (nShots : ℤ) : Except PyErr (List (ℕ × ℤ)) := do
  let counts ← renormalizeCounts (pCorr.map (fun p => PSR.rint (p * nShots))) nShots
  let counts := if counts.sum ≠ nShots then
      counts.modify (argmax counts) (fun c => c - (counts.sum - nShots))
    else counts
  if counts.sum = nShots then
    return (counts.zipIdx.map (fun c => (c.2, c.1))).filter (fun kc => 0 < kc.2)
  else .error .assertionError

end Qadence.Readout
