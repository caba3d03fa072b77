import Mathlib.Analysis.SpecialFunctions.Log.NegMulLog
import Verif.Model.Bits

/-!
# Divergences of counters (`qadence/divergences.py`)

Numbers are real and exact. `none` stands for `nan`.
-/

namespace Qadence.Divergence

open Classical

/-- `shannon_entropy` (qadence/divergences.py:8-9). `0 * log(0)` and logarithms of negative numbers are `nan`. -/
noncomputable def shannonEntropy (c : PyDict Bits ℝ) : Option ℝ :=
  if ∀ kv ∈ c, 0 < kv.2 then some (-(c.map fun kv => kv.2 * Real.log kv.2).sum) else none

/-- `Counter({k: v / normalisation for k, v in counter.items()})` (qadence/divergences.py:27-30). If the total is zero the
quotients are `nan`; here they are zero, which is `nan` in `shannon_entropy`. -/
noncomputable def normalise (c : PyDict Bits ℕ) : PyDict Bits ℝ :=
  c.map fun kv => (kv.1, (kv.2 : ℝ) / ((c.map Prod.snd).sum : ℕ))

/-- `Counter.__add__` of the standard library: only positive counts are kept. -/
noncomputable def addCounters (p q : PyDict Bits ℝ) : PyDict Bits ℝ :=
  ((p.map fun kv => (kv.1, kv.2 + (q.get? kv.1).getD 0)).filter fun kv => decide (0 < kv.2)) ++
    q.filter fun kv => decide (kv.1 ∉ p.map Prod.fst ∧ 0 < kv.2)

/-- `js_divergence` (qadence/divergences.py:12-38). -/
noncomputable def jsDivergence (cp cq : PyDict Bits ℕ) : Option ℝ := do
  let p := normalise cp
  let q := normalise cq
  let average := (addCounters p q).map fun kv => (kv.1, kv.2 / 2)
  let averageEntropy ← shannonEntropy average
  let entropyP ← shannonEntropy p
  let entropyQ ← shannonEntropy q
  return averageEntropy - (entropyP + entropyQ) / 2

/-- `overlap_jensen_shannon` (qadence/overlap.py:174-184). -/
noncomputable def overlapJensenShannon (bras kets : List (PyDict Bits ℕ)) : List (Option ℝ) :=
  List.zipWith (fun p q => (jsDivergence p q).map fun v => 1 - v) bras kets

/-- Differences of arrays; arrays of length one are repeated. -/
noncomputable def broadcastSub (a b : List ℝ) : Except PyErr (List ℝ) :=
  if a.length = b.length then .ok (List.zipWith (· - ·) a b)
  else match a, b with
    | [x], b => .ok (b.map fun y => x - y)
    | a, [y] => .ok (a.map fun x => x - y)
    | _, _ => .error .valueError

/-- `norm_difference` (qadence/divergences.py:41-50), for counters with a positive total. -/
noncomputable def normDifference (cp cq : PyDict Bits ℕ) : Except PyErr ℝ := do
  let probP := cp.map fun kv => (kv.2 : ℝ) / ((cp.map Prod.snd).sum : ℕ)
  let probQ := cq.map fun kv => (kv.2 : ℝ) / ((cq.map Prod.snd).sum : ℕ)
  let d ← broadcastSub probP probQ
  return Real.sqrt (d.map fun x => x ^ 2).sum

end Qadence.Divergence
