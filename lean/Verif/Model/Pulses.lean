import Mathlib.Analysis.SpecialFunctions.Pow.Real
import Mathlib.Analysis.SpecialFunctions.Trigonometric.Basic
import Verif.Model.Py

/-!
# Pulses of the Pulser backend (`qadence/backends/pulser/waveforms.py`, `pulses.py`)

Exact real arithmetic. Values are numbers: a pulse with variables is built by the same functions when the variables get values
(`@parametrize`). Durations are in ns, amplitudes and detunings in rad/µs.
-/

namespace Qadence.Pulses

/-- `np.round`: to the nearest integer, halves to the even one. -/
noncomputable def roundEven (x : ℝ) : ℤ :=
  if Int.fract x < 1 / 2 then ⌊x⌋
  else if 1 / 2 < Int.fract x then ⌊x⌋ + 1
  else if Even ⌊x⌋ then ⌊x⌋ else ⌊x⌋ + 1

/-- A constant waveform. -/
structure Wave where
  duration : ℝ
  value : ℝ

/-- `MAX_AMPLITUDE_SCALING` (qadence/backends/pulser/waveforms.py:8). -/
noncomputable def maxAmplitudeScaling : ℝ := 1 / 10

/-- `EPS` (qadence/backends/pulser/waveforms.py:9). -/
noncomputable def eps : ℝ := 1 / 10 ^ 9

/-- New amplitude for a longer duration (qadence/backends/pulser/waveforms.py:38-41, 50-53). -/
noncomputable def nextAmplitude (area maxAmp duration : ℝ) : ℝ :=
  max (maxAmplitudeScaling * maxAmp * ⌈area / (maxAmplitudeScaling * maxAmp * duration) * 1000⌉) maxAmp

/-- The `while` loop of `from_area` (qadence/backends/pulser/waveforms.py:44-54), at most `fuel` repetitions. -/
noncomputable def areaLoop (area maxAmp : ℝ) (steps : ℕ) : ℕ → Wave → Wave
  | 0, w => w
  | fuel + 1, w =>
    let duration := w.duration + steps
    let amplitude := nextAmplitude area maxAmp duration
    if |1 / 1000 * duration * amplitude - area| < |1 / 1000 * w.duration * w.value - area| then
      areaLoop area maxAmp steps fuel ⟨duration, amplitude⟩
    else w

/-- `SquareWaveform.from_area` (qadence/backends/pulser/waveforms.py:16-56). -/
noncomputable def fromArea (fuel : ℕ) (area maxAmp : ℝ) (steps minDuration : ℕ) : Wave :=
  let duration : ℝ := max (steps * roundEven (area / (steps * maxAmp) * 1000)) minDuration
  let amplitude := min (maxAmplitudeScaling * maxAmp * ⌈area / (maxAmplitudeScaling * maxAmp * duration) * 1000⌉) maxAmp
  areaLoop area maxAmp steps fuel ⟨duration, amplitude⟩

/-- `SquareWaveform.from_duration` (qadence/backends/pulser/waveforms.py:58-78). -/
noncomputable def fromDuration (duration maxAmp : ℝ) (steps minDuration : ℕ) : Wave where
  duration := max (steps * roundEven (duration / steps)) minDuration
  value := min (maxAmplitudeScaling * maxAmp * ⌈maxAmp / (maxAmplitudeScaling * maxAmp + eps) * 1000⌉) maxAmp

/-- What is used of a Pulser channel. -/
structure Channel where
  clock : ℕ
  minDuration : ℕ
  maxAmp : ℝ
  maxDet : ℝ
  isGlobal : Bool

/-- Amplitudes and detuning of the backend configuration (qadence/backends/pulser/config.py:51-66). -/
structure Config where
  amplitudeLocal : Option ℝ := none
  amplitudeGlobal : Option ℝ := none
  detuning : Option ℝ := none

/-- A pulse: amplitude and detuning waveforms and the phase. -/
structure Pulse where
  amp : Wave
  det : Wave
  phase : ℝ

/-- `digital_xy_rot_pulse` (qadence/backends/pulser/pulses.py:266-282); the detuning is 0 during the amplitude waveform. -/
noncomputable def digitalXY (fuel : ℕ) (angle phase : ℝ) (ch : Channel) (cfg : Config) : Pulse :=
  let w := fromArea fuel |angle| (cfg.amplitudeLocal.getD ch.maxAmp) ch.clock ch.minDuration
  ⟨w, ⟨w.duration, 0⟩, phase⟩

/-- `digital_z_rot_pulse` (qadence/backends/pulser/pulses.py:285-312). -/
noncomputable def digitalZ (angle phase : ℝ) (ch : Channel) (cfg : Config) : Pulse :=
  let maxDet := cfg.detuning.getD ch.maxDet
  let duration := 1000 * |angle| / maxDet
  ⟨fromDuration duration 0 ch.clock ch.minDuration, fromDuration duration maxDet ch.clock ch.minDuration, |phase|⟩

/-- `analog_rot_pulse` (qadence/backends/pulser/pulses.py:200-238). -/
noncomputable def analogRot (alpha omega phase detuning : ℝ) (ch : Channel) (cfg : Config) : Pulse :=
  let maxAmp := if ch.isGlobal then cfg.amplitudeGlobal.getD omega else cfg.amplitudeLocal.getD omega
  let maxDet := cfg.detuning.getD detuning
  let duration := 1000 * |alpha| / Real.sqrt (omega ^ 2 + detuning ^ 2)
  ⟨fromDuration duration maxAmp ch.clock ch.minDuration, fromDuration duration maxDet ch.clock ch.minDuration, |phase|⟩

/-- Duration of the delay in `entangle_pulse` (qadence/backends/pulser/pulses.py:251-252). -/
noncomputable def delayDuration (duration : ℝ) (clock : ℕ) : ℝ := clock * ⌈duration / clock⌉

/-! ## Sequences -/

/-- Blocks as `add_pulses` sees them; `other` is any block without a branch. -/
inductive PBlock
  | rx (angle : ℝ) (q : ℕ)
  | ry (angle : ℝ) (q : ℕ)
  | rz (angle : ℝ) (q : ℕ)
  | rotation (alpha omega phase detuning : ℝ) (support : Option (List ℕ))
  | wait (duration : ℝ) (support : Option (List ℕ))
  | composite (blocks : List PBlock)
  | other

/-- An item of a sequence: a pulse on the local channel targeted at qubits, or on the global channel. -/
structure Item where
  targets : Option (List ℕ)
  pulse : Pulse

mutual

/-- `add_pulses` (qadence/backends/pulser/pulses.py:97-197) without `AnalogEntanglement`: the items added to the sequence of a register of
`n` qubits; a support `none` is global. -/
noncomputable def addPulses (fuel n : ℕ) (gl lo : Channel) (cfg : Config) : PBlock → Except PyErr (List Item)
  | .rx a q => .ok [⟨some [q], digitalXY fuel a 0 lo cfg⟩]
  | .ry a q => .ok [⟨some [q], digitalXY fuel a (Real.pi / 2) lo cfg⟩]
  | .rz a q => .ok [⟨some [q], digitalZ a (Real.pi / 2) lo cfg⟩]
  | .rotation a w p d none => .ok [⟨none, analogRot a w p d gl cfg⟩]
  | .rotation a w p d (some qs) => .ok [⟨some qs, analogRot a w p d lo cfg⟩]
  | .wait t none => .ok [⟨none, ⟨⟨t, 0⟩, ⟨t, 0⟩, 0⟩⟩]
  | .wait _ (some qs) => if qs.all (· < n) then .ok [] else .error .valueError
  | .composite bs => addPulsesList fuel n gl lo cfg bs
  | .other => .error .notImplementedError

/-- The loop over the parts of a composite block (qadence/backends/pulser/pulses.py:191-193). -/
noncomputable def addPulsesList (fuel n : ℕ) (gl lo : Channel) (cfg : Config) : List PBlock → Except PyErr (List Item)
  | [] => .ok []
  | b :: bs => do
    let i ← addPulses fuel n gl lo cfg b
    let is ← addPulsesList fuel n gl lo cfg bs
    .ok (i ++ is)

end

end Qadence.Pulses
