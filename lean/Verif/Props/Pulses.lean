import Mathlib.Tactic
import Verif.Model.Pulses
import Verif.Spec.GateSem
import Verif.Proofs.ExpInvol

/-!
# C77: pulses of the Pulser backend
-/

namespace Qadence.Pulses

open Matrix Complex Spec

namespace Spec

/-- The Hamiltonian of one atom driven with amplitude `Ω`, detuning `δ` and phase `φ` as documented by Pulser, in the basis of qadence
(ground state 0, Rydberg state 1): `Ω/2 (e^{-iφ} |g⟩⟨r| + e^{iφ} |r⟩⟨g|) - δ |r⟩⟨r|`. -/
noncomputable def pulserHam (Ω δ φ : ℝ) : Matrix Bool Bool ℂ :=
  fun a b => match a, b with
    | false, true => Ω / 2 * exp (-(I * φ))
    | true, false => Ω / 2 * exp (I * φ)
    | true, true => -δ
    | false, false => 0

/-- The Hamiltonian documented for analog rotations in qadence: `Ω/2 (cos φ X - sin φ Y) - δ N`. -/
noncomputable def qadenceHam (Ω δ φ : ℝ) : Matrix Bool Bool ℂ :=
  ((Ω : ℂ) / 2) • (cos φ • mat1 .X - sin φ • mat1 .Y) - (δ : ℂ) • mat1 (.N true)

/-- Evolution during `t` µs. -/
noncomputable def evolve (t : ℝ) (H : Matrix Bool Bool ℂ) : Matrix Bool Bool ℂ := NormedSpace.exp ((-I * (t : ℂ)) • H)

/-- What a pulse with constant waveforms of equal duration does to a single atom. -/
noncomputable def pulseOp (p : Pulse) : Matrix Bool Bool ℂ :=
  evolve (p.amp.duration / 1000) (pulserHam p.amp.value p.det.value p.phase)

end Spec

open Spec

/-! ## Waveforms -/

theorem roundEven_err (x : ℝ) : |(roundEven x : ℝ) - x| ≤ 1 / 2 := by
  have h0 := Int.fract_nonneg x
  have h1 := Int.fract_lt_one x
  have e : x = ⌊x⌋ + Int.fract x := (Int.floor_add_fract x).symm
  unfold roundEven
  rw [abs_le]
  split
  · constructor <;> linarith
  · split
    · push_cast; constructor <;> linarith
    · have : Int.fract x = 1 / 2 := by linarith
      split <;> push_cast <;> constructor <;> linarith

/-- **C77** `np.round` on halves: to the even neighbour. -/
theorem roundEven_half (k : ℤ) : roundEven (k + 1 / 2) = if Even k then k else k + 1 := by
  have hf : ⌊(k : ℝ) + 1 / 2⌋ = k := by
    rw [Int.floor_intCast_add]
    norm_num
  have hr : Int.fract ((k : ℝ) + 1 / 2) = 1 / 2 := by rw [Int.fract, hf]; ring
  unfold roundEven
  rw [hr, hf]
  norm_num

theorem areaLoop_stays (area maxAmp : ℝ) (steps : ℕ) (fuel : ℕ) (w : Wave)
    (h : |1 / 1000 * w.duration * w.value - area| ≤
      |1 / 1000 * (w.duration + steps) * nextAmplitude area maxAmp (w.duration + steps) - area|) :
    areaLoop area maxAmp steps fuel w = w := by
  cases fuel with
  | zero => rfl
  | succ fuel =>
    simp only [areaLoop]
    rw [if_neg (not_lt.2 h)]

/-- **C77** a waveform built from an area: its amplitude is between 0 and the maximum, its duration is at least the minimum and (unless it
is the minimum) a multiple of the clock period, and its area is the requested one up to half a clock period or a tenth of the
minimum duration at maximal amplitude. The search loop never repeats. -/
theorem C77_from_area (fuel : ℕ) (area maxAmp : ℝ) (steps minDuration : ℕ) (ha : 0 ≤ area) (hm : 0 < maxAmp) (hs : 0 < steps)
    (hd : 0 < minDuration) :
    let w := fromArea fuel area maxAmp steps minDuration
    0 ≤ w.value ∧ w.value ≤ maxAmp ∧ (minDuration : ℝ) ≤ w.duration ∧
      ((∃ k : ℤ, w.duration = steps * k) ∨ w.duration = minDuration) ∧
      |w.duration / 1000 * w.value - area| ≤ max ((steps : ℝ) / 2) ((minDuration : ℝ) / 10) * maxAmp / 1000 ∧
      w = fromArea 0 area maxAmp steps minDuration := by
  intro w
  have hsr : (0 : ℝ) < steps := by exact_mod_cast hs
  have hdr : (0 : ℝ) < minDuration := by exact_mod_cast hd
  set D : ℝ := max (steps * roundEven (area / (steps * maxAmp) * 1000)) minDuration with hD
  set A : ℝ := min (maxAmplitudeScaling * maxAmp * ⌈area / (maxAmplitudeScaling * maxAmp * D) * 1000⌉) maxAmp with hA
  set x : ℝ := area * 1000 / maxAmp with hx
  have hx0 : 0 ≤ x := by positivity
  have hax : area = x * maxAmp / 1000 := by rw [hx]; field_simp
  have hDpos : 0 < D := lt_of_lt_of_le hdr (le_max_right _ _)
  have hround : |(steps * roundEven (area / (steps * maxAmp) * 1000) : ℝ) - x| ≤ steps / 2 := by
    have h1 := roundEven_err (area / (steps * maxAmp) * 1000)
    have h2 : x = steps * (area / (steps * maxAmp) * 1000) := by rw [hx]; field_simp
    rw [h2, ← mul_sub, abs_mul, abs_of_pos hsr]
    nlinarith
  have hratio : area / (maxAmplitudeScaling * maxAmp * D) * 1000 = 10 * x / D := by
    rw [hx, maxAmplitudeScaling]; field_simp
  have hc0 : (0 : ℤ) ≤ ⌈10 * x / D⌉ := Int.ceil_nonneg (by positivity)
  have hA0 : 0 ≤ A := by
    rw [hA, hratio, maxAmplitudeScaling]
    have : (0 : ℝ) ≤ ⌈10 * x / D⌉ := by exact_mod_cast hc0
    exact le_min (by positivity) hm.le
  -- the two cases: duration long enough or not
  have hcase1 : x ≤ D → x ≤ D * A / maxAmp ∧ D * A / maxAmp ≤ D ∧ D * A / maxAmp ≤ x + D / 10 := by
    intro hle
    have h10 : 10 * x / D ≤ 10 := by rw [div_le_iff₀ hDpos]; linarith
    have hc : ⌈10 * x / D⌉ ≤ 10 := by
      rw [Int.ceil_le]
      exact_mod_cast h10
    have hcr : (⌈10 * x / D⌉ : ℝ) ≤ 10 := by exact_mod_cast hc
    have hAe : A = maxAmp / 10 * ⌈10 * x / D⌉ := by
      rw [hA, hratio, maxAmplitudeScaling, min_eq_left]
      · ring
      · nlinarith
    have e : D * A / maxAmp = D * ⌈10 * x / D⌉ / 10 := by rw [hAe]; field_simp
    have l1 := Int.le_ceil (10 * x / D)
    have l2 := Int.ceil_lt_add_one (10 * x / D)
    rw [div_le_iff₀ hDpos] at l1
    have l3 : (⌈10 * x / D⌉ : ℝ) * D < 10 * x + D := by
      have := mul_lt_mul_of_pos_right l2 hDpos
      rw [add_mul, div_mul_cancel₀ _ hDpos.ne', one_mul] at this
      exact this
    rw [e]
    refine ⟨by linarith, by nlinarith, by linarith⟩
  have hcase2 : D < x → A = maxAmp := by
    intro hlt
    have : (10 : ℤ) ≤ ⌈10 * x / D⌉ := by
      have h10 : (10 : ℝ) ≤ 10 * x / D := by rw [le_div_iff₀ hDpos]; linarith
      exact_mod_cast h10.trans (Int.le_ceil _)
    have hcr : (10 : ℝ) ≤ ⌈10 * x / D⌉ := by exact_mod_cast this
    rw [hA, hratio, maxAmplitudeScaling, min_eq_right]
    nlinarith
  have hnext : x ≤ D + steps → nextAmplitude area maxAmp (D + steps) = maxAmp := by
    intro hle
    have hpos : 0 < D + steps := by positivity
    have hr : area / (maxAmplitudeScaling * maxAmp * (D + steps)) * 1000 = 10 * x / (D + steps) := by
      rw [hx, maxAmplitudeScaling]; field_simp
    have hc : ⌈10 * x / (D + steps)⌉ ≤ 10 := by
      rw [Int.ceil_le]
      have : 10 * x / (D + steps) ≤ 10 := by rw [div_le_iff₀ hpos]; linarith
      exact_mod_cast this
    have hcr : (⌈10 * x / (D + steps)⌉ : ℝ) ≤ 10 := by exact_mod_cast hc
    rw [nextAmplitude, hr, maxAmplitudeScaling, max_eq_right]
    nlinarith
  have hDge : x - steps / 2 ≤ D := by
    have h1 := (abs_le.1 hround).1
    have h2 : (steps * roundEven (area / (steps * maxAmp) * 1000) : ℝ) ≤ D := le_max_left _ _
    linarith
  -- error of the waveform
  have herr : |1 / 1000 * D * A - area| = |D * A / maxAmp - x| * maxAmp / 1000 := by
    have : 1 / 1000 * D * A - area = (D * A / maxAmp - x) * (maxAmp / 1000) := by
      rw [hax]; field_simp
    rw [this, abs_mul, abs_of_pos (show 0 < maxAmp / 1000 by positivity)]
    ring
  have hbase : |D * A / maxAmp - x| ≤ max ((steps : ℝ) / 2) ((minDuration : ℝ) / 10) := by
    rcases le_or_gt x D with hle | hlt
    · obtain ⟨h1, h2, h3⟩ := hcase1 hle
      rw [abs_of_nonneg (by linarith)]
      rcases le_or_gt (minDuration : ℝ) (steps * roundEven (area / (steps * maxAmp) * 1000) : ℝ) with hmd | hmd
      · have hDe : D = steps * roundEven (area / (steps * maxAmp) * 1000) := max_eq_left hmd
        have := (abs_le.1 hround).2
        rw [← hDe] at this
        exact le_max_of_le_left (by linarith)
      · have hDe : D = minDuration := max_eq_right hmd.le
        exact le_max_of_le_right (by rw [← hDe]; linarith)
    · rw [hcase2 hlt, mul_div_assoc, div_self hm.ne', mul_one, abs_of_nonpos (by linarith)]
      exact le_max_of_le_left (by linarith)
  have hstay : areaLoop area maxAmp steps fuel ⟨D, A⟩ = ⟨D, A⟩ := by
    apply areaLoop_stays
    simp only
    rw [hnext (by linarith), herr]
    have e2 : |1 / 1000 * (D + steps) * maxAmp - area| = (D + steps - x) * maxAmp / 1000 := by
      have : 1 / 1000 * (D + steps) * maxAmp - area = (D + steps - x) * maxAmp / 1000 := by rw [hax]; ring
      rw [this, abs_of_nonneg]
      have : 0 ≤ D + steps - x := by linarith
      positivity
    rw [e2]
    have hle : |D * A / maxAmp - x| ≤ D + steps - x := by
      rcases le_or_gt x D with hle | hlt
      · obtain ⟨h1, h2, -⟩ := hcase1 hle
        rw [abs_of_nonneg (by linarith)]
        linarith
      · rw [hcase2 hlt, mul_div_assoc, div_self hm.ne', mul_one, abs_of_nonpos (by linarith)]
        linarith
    have : 0 ≤ maxAmp / 1000 := by positivity
    have := mul_le_mul_of_nonneg_right hle this
    calc _ = |D * A / maxAmp - x| * (maxAmp / 1000) := by ring
      _ ≤ _ := this
      _ = _ := by ring
  have hw : w = ⟨D, A⟩ := hstay
  rw [hw]
  refine ⟨hA0, min_le_right _ _, le_max_right _ _, ?_, ?_, rfl⟩
  · rcases max_choice (steps * roundEven (area / (steps * maxAmp) * 1000) : ℝ) minDuration with h | h
    · exact Or.inl ⟨_, h⟩
    · exact Or.inr h
  · have : D / 1000 * A - area = 1 / 1000 * D * A - area := by ring
    simp only
    rw [this, herr]
    have hmp : 0 ≤ maxAmp / 1000 := by positivity
    calc _ = |D * A / maxAmp - x| * (maxAmp / 1000) := by ring
      _ ≤ _ := mul_le_mul_of_nonneg_right hbase hmp
      _ = _ := by ring

/-- The duration chosen by `from_duration`. -/
theorem fromDuration_duration (duration maxAmp : ℝ) (steps minDuration : ℕ) (hs : 0 < steps) :
    let w := fromDuration duration maxAmp steps minDuration
    (minDuration : ℝ) ≤ w.duration ∧ ((∃ k : ℤ, w.duration = steps * k) ∨ w.duration = minDuration) ∧
      (0 ≤ duration → |w.duration - duration| ≤ max ((steps : ℝ) / 2) minDuration) ∧
      ((minDuration : ℝ) ≤ duration → |w.duration - duration| ≤ (steps : ℝ) / 2) := by
  intro w
  have hsr : (0 : ℝ) < steps := by exact_mod_cast hs
  have hround : |(steps * roundEven (duration / steps) : ℝ) - duration| ≤ steps / 2 := by
    have h1 := roundEven_err (duration / steps)
    have h2 : duration = steps * (duration / steps) := by field_simp
    conv_lhs => rw [h2]
    rw [mul_div_cancel_left₀ _ hsr.ne', ← mul_sub, abs_mul, abs_of_pos hsr]
    nlinarith
  have hwd : w.duration = max (steps * roundEven (duration / steps) : ℝ) minDuration := rfl
  have hl := abs_le.1 hround
  refine ⟨le_max_right _ _, ?_, fun h0 => ?_, fun h0 => ?_⟩
  · rcases max_choice (steps * roundEven (duration / steps) : ℝ) minDuration with h | h
    · exact Or.inl ⟨_, hwd.trans h⟩
    · exact Or.inr (hwd.trans h)
  · rw [hwd]
    rcases le_total (minDuration : ℝ) (steps * roundEven (duration / steps) : ℝ) with h | h
    · rw [max_eq_left h]; exact le_max_of_le_left hround
    · rw [max_eq_right h, abs_le]
      have h1 := le_max_left ((steps : ℝ) / 2) (minDuration : ℝ)
      have h2 := le_max_right ((steps : ℝ) / 2) (minDuration : ℝ)
      constructor <;> linarith
  · rw [hwd]
    rcases le_total (minDuration : ℝ) (steps * roundEven (duration / steps) : ℝ) with h | h
    · rw [max_eq_left h]; exact hround
    · rw [max_eq_right h, abs_le]
      constructor <;> linarith

/-- **C77** a waveform built from a duration has the value asked for if this is 0 or at least `1e-11`, and the duration asked for up to
half a clock period, or the minimum. -/
theorem C77_from_duration_partial (duration maxAmp : ℝ) (steps minDuration : ℕ) (hs : 0 < steps)
    (hm : maxAmp = 0 ∨ 1 / 10 ^ 11 ≤ maxAmp) :
    let w := fromDuration duration maxAmp steps minDuration
    w.value = maxAmp ∧ (minDuration : ℝ) ≤ w.duration ∧ ((∃ k : ℤ, w.duration = steps * k) ∨ w.duration = minDuration) ∧
      (0 ≤ duration → |w.duration - duration| ≤ max ((steps : ℝ) / 2) minDuration) ∧
      ((minDuration : ℝ) ≤ duration → |w.duration - duration| ≤ (steps : ℝ) / 2) := by
  refine ⟨?_, fromDuration_duration duration maxAmp steps minDuration hs⟩
  rcases hm with rfl | hm
  · simp [fromDuration]
  · have hpos : 0 < maxAmp := lt_of_lt_of_le (by positivity) hm
    have hden : 0 < maxAmplitudeScaling * maxAmp + eps := by
      unfold maxAmplitudeScaling eps; positivity
    have h9 : (9 : ℝ) < maxAmp / (maxAmplitudeScaling * maxAmp + eps) * 1000 := by
      rw [div_mul_eq_mul_div, lt_div_iff₀ hden]
      unfold maxAmplitudeScaling eps
      norm_num at hm ⊢
      linarith
    have hc : (10 : ℤ) ≤ ⌈maxAmp / (maxAmplitudeScaling * maxAmp + eps) * 1000⌉ := by
      have : (9 : ℤ) < ⌈maxAmp / (maxAmplitudeScaling * maxAmp + eps) * 1000⌉ := Int.lt_ceil.2 (by exact_mod_cast h9)
      omega
    have hcr : (10 : ℝ) ≤ ⌈maxAmp / (maxAmplitudeScaling * maxAmp + eps) * 1000⌉ := by exact_mod_cast hc
    show min (maxAmplitudeScaling * maxAmp * (⌈maxAmp / (maxAmplitudeScaling * maxAmp + eps) * 1000⌉ : ℝ)) maxAmp = maxAmp
    generalize (⌈maxAmp / (maxAmplitudeScaling * maxAmp + eps) * 1000⌉ : ℝ) = c at hcr ⊢
    rw [min_eq_right]
    unfold maxAmplitudeScaling
    nlinarith

/-- A negative value (a negative detuning) comes out at least a thousand times too large. -/
theorem C77_counterexample_negative_detuning (duration v : ℝ) (steps minDuration : ℕ) (hv : v < -1 / 10 ^ 8) :
    (fromDuration duration v steps minDuration).value ≤ 1000 * v := by
  have hden : maxAmplitudeScaling * v + eps < 0 := by
    unfold maxAmplitudeScaling eps
    norm_num at hv ⊢
    linarith
  have h1 : (10 : ℝ) ≤ v / (maxAmplitudeScaling * v + eps) := by
    rw [le_div_iff_of_neg hden]
    unfold maxAmplitudeScaling eps
    norm_num
    linarith
  have h2 : (10000 : ℝ) ≤ ⌈v / (maxAmplitudeScaling * v + eps) * 1000⌉ := by
    refine le_trans ?_ (Int.le_ceil _)
    linarith
  have hv0 : v < 0 := lt_trans hv (by norm_num)
  have h3 : (fromDuration duration v steps minDuration).value ≤
      maxAmplitudeScaling * v * (⌈v / (maxAmplitudeScaling * v + eps) * 1000⌉ : ℝ) := min_le_left _ _
  refine h3.trans ?_
  generalize (⌈v / (maxAmplitudeScaling * v + eps) * 1000⌉ : ℝ) = c at h2
  unfold maxAmplitudeScaling
  nlinarith

/-! ## Digital rotations -/

theorem matX_apply (a b : Bool) : mat1 .X a b = if a = b then 0 else 1 := by
  cases a <;> cases b <;> simp [mat1, ind]

theorem matN_apply (a b : Bool) : mat1 (.N true) a b = if a = true ∧ b = true then 1 else 0 := by
  cases a <;> cases b <;> simp [mat1, ind]

theorem matRX_apply (θ : ℂ) (a b : Bool) : matRot θ .RX a b = if a = b then cos (θ / 2) else -I * sin (θ / 2) := rfl

theorem matRY_apply (θ : ℂ) (a b : Bool) :
    matRot θ .RY a b = if a = b then cos (θ / 2) else if a then sin (θ / 2) else -sin (θ / 2) := rfl

theorem matRZ_apply (θ : ℂ) (a b : Bool) :
    matRot θ .RZ a b = if a = b then (if a then exp (I * θ / 2) else exp (-(I * θ / 2))) else 0 := rfl

theorem matY_apply (a b : Bool) : mat1 .Y a b = if a = b then 0 else if a = true then I else -I := rfl

theorem pulserHam_resonant (Ω φ : ℝ) :
    pulserHam Ω 0 φ = ((Ω : ℂ) / 2) • (cos φ • mat1 .X + sin φ • mat1 .Y) := by
  have h1 : exp (I * φ) = cos φ + sin φ * I := by rw [mul_comm, exp_mul_I]
  have h2 : exp (-(I * φ)) = cos φ - sin φ * I := by
    rw [show -(I * (φ : ℂ)) = (-φ : ℂ) * I by ring, exp_mul_I, cos_neg, sin_neg]; ring
  ext a b
  cases a <;> cases b <;> simp [pulserHam, matX_apply, matY_apply, h1, h2] <;> ring_nf <;> simp

theorem axis_square (φ : ℝ) : (cos (φ : ℂ) • mat1 .X + sin (φ : ℂ) • mat1 .Y) * (cos (φ : ℂ) • mat1 .X + sin (φ : ℂ) • mat1 .Y) =
    (1 : Matrix Bool Bool ℂ) := by
  have h := cos_sq_add_sin_sq (φ : ℂ)
  have hI : I * I = -1 := I_mul_I
  ext a b
  cases a <;> cases b <;>
    simp [Matrix.mul_apply, matX_apply, matY_apply] <;> linear_combination h - (sin (φ : ℂ)) ^ 2 * hI

/-- Resonant driving rotates about an axis in the equator by the area. -/
theorem evolve_resonant (Ω φ t : ℝ) :
    evolve t (pulserHam Ω 0 φ) = cos ((t * Ω : ℝ) / 2) • (1 : Matrix Bool Bool ℂ) +
      (-I * sin ((t * Ω : ℝ) / 2)) • (cos (φ : ℂ) • mat1 .X + sin (φ : ℂ) • mat1 .Y) := by
  rw [evolve, pulserHam_resonant, smul_smul, show -I * (t : ℂ) * ((Ω : ℂ) / 2) = -I * (((t * Ω : ℝ) : ℂ) / 2) by push_cast; ring,
    exp_invol_I _ (axis_square φ)]

theorem evolve_rx (Ω t : ℝ) : evolve t (pulserHam Ω 0 0) = matRot (t * Ω : ℝ) .RX := by
  rw [evolve_resonant]
  ext a b
  cases a <;> cases b <;> simp [matRX_apply, matX_apply]

theorem evolve_ry (Ω t : ℝ) : evolve t (pulserHam Ω 0 (Real.pi / 2)) = matRot (t * Ω : ℝ) .RY := by
  rw [evolve_resonant]
  have hc : cos ((Real.pi / 2 : ℝ) : ℂ) = 0 := by push_cast; exact cos_pi_div_two
  have hsn : sin ((Real.pi / 2 : ℝ) : ℂ) = 1 := by push_cast; exact sin_pi_div_two
  rw [hc, hsn]
  have hI : I * I = -1 := I_mul_I
  ext a b
  cases a <;> cases b <;> simp [matRY_apply, matY_apply]
  · linear_combination sin ((t : ℂ) * Ω / 2) * hI
  · linear_combination -sin ((t : ℂ) * Ω / 2) * hI

/-- Detuning alone rotates about the z axis, up to a global phase. -/
theorem evolve_rz (δ φ t : ℝ) :
    evolve t (pulserHam 0 δ φ) = exp (I * (t * δ : ℝ) / 2) • matRot (t * δ : ℝ) .RZ := by
  have hd : (-I * (t : ℂ)) • pulserHam 0 δ φ = Matrix.diagonal fun b : Bool => if b then I * (t * δ : ℝ) else 0 := by
    ext a b
    cases a <;> cases b <;> simp [pulserHam, Matrix.diagonal]
    ring
  rw [evolve, hd, Matrix.exp_diagonal]
  ext a b
  cases a <;> cases b <;> simp [matRZ_apply, Matrix.diagonal, ← Complex.exp_eq_exp_ℂ, Pi.coe_exp, ← Complex.exp_add]

/-- **C77** the pulses for RX and RY do a rotation about the right axis, by the absolute value of the angle up to half a clock period or a
tenth of the minimum duration at maximal amplitude; they never exceed the maximal amplitude. -/
theorem C77_xy_rotation_partial (fuel : ℕ) (angle : ℝ) (ch : Channel) (cfg : Config) (hc : 0 < ch.clock) (hd : 0 < ch.minDuration)
    (hm : 0 < cfg.amplitudeLocal.getD ch.maxAmp) :
    ∃ θ : ℝ, |θ - abs angle| ≤ max ((ch.clock : ℝ) / 2) ((ch.minDuration : ℝ) / 10) * cfg.amplitudeLocal.getD ch.maxAmp / 1000 ∧
      pulseOp (digitalXY fuel angle 0 ch cfg) = matRot θ .RX ∧
      pulseOp (digitalXY fuel angle (Real.pi / 2) ch cfg) = matRot θ .RY ∧
      ∀ phase, (digitalXY fuel angle phase ch cfg).amp.value ≤ cfg.amplitudeLocal.getD ch.maxAmp ∧
        (digitalXY fuel angle phase ch cfg).det.value = 0 := by
  obtain ⟨-, h2, -, -, h5, -⟩ := C77_from_area fuel |angle| (cfg.amplitudeLocal.getD ch.maxAmp) ch.clock ch.minDuration
    (abs_nonneg _) hm hc hd
  exact ⟨_, h5, evolve_rx _ _, evolve_ry _ _, fun _ => ⟨h2, rfl⟩⟩

/-- **C77** RZ: up to a global phase a rotation by the absolute value of the angle, up to half a clock period at maximal detuning if
the minimum duration is not longer than needed. -/
theorem C77_z_rotation_partial (angle phase : ℝ) (ch : Channel) (cfg : Config) (hc : 0 < ch.clock)
    (hm : 1 / 10 ^ 11 ≤ cfg.detuning.getD ch.maxDet) :
    ∃ θ : ℝ, pulseOp (digitalZ angle phase ch cfg) = exp (I * θ / 2) • matRot θ .RZ ∧
      ((ch.minDuration : ℝ) ≤ 1000 * |angle| / cfg.detuning.getD ch.maxDet →
        |θ - abs angle| ≤ (ch.clock : ℝ) / 2 * cfg.detuning.getD ch.maxDet / 1000) ∧
      |θ - abs angle| ≤ max ((ch.clock : ℝ) / 2) ch.minDuration * cfg.detuning.getD ch.maxDet / 1000 := by
  set M := cfg.detuning.getD ch.maxDet with hM
  have hpos : 0 < M := lt_of_lt_of_le (by positivity) hm
  have h0 := C77_from_duration_partial (1000 * |angle| / M) 0 ch.clock ch.minDuration hc (Or.inl rfl)
  obtain ⟨h1, -, -, h4, h5⟩ := C77_from_duration_partial (1000 * |angle| / M) M ch.clock ch.minDuration hc (Or.inr hm)
  have hdur : (digitalZ angle phase ch cfg).amp.duration = (digitalZ angle phase ch cfg).det.duration := rfl
  have hamp : (digitalZ angle phase ch cfg).amp.value = 0 := h0.1
  have hdet : (digitalZ angle phase ch cfg).det.value = M := h1
  set d := (digitalZ angle phase ch cfg).det.duration with hdd
  have hscale : ∀ b : ℝ, |d - 1000 * |angle| / M| ≤ b → |d / 1000 * M - abs angle| ≤ b * M / 1000 := by
    intro b hb
    have e : d / 1000 * M - |angle| = (d - 1000 * |angle| / M) * (M / 1000) := by field_simp
    rw [e, abs_mul, abs_of_pos (show 0 < M / 1000 by positivity)]
    calc _ ≤ b * (M / 1000) := mul_le_mul_of_nonneg_right hb (by positivity)
      _ = _ := by ring
  refine ⟨d / 1000 * M, ?_, fun h => hscale _ (h5 h), hscale _ (h4 (by positivity))⟩
  rw [pulseOp, hdur, hamp, hdet]
  exact evolve_rz _ _ _

/-- Negative angles: the pulse is that of the positive angle, for all three rotations. -/
theorem C77_counterexample_negative_angle (fuel : ℕ) (angle phase : ℝ) (ch : Channel) (cfg : Config) :
    digitalXY fuel (-angle) phase ch cfg = digitalXY fuel angle phase ch cfg ∧
      digitalZ (-angle) phase ch cfg = digitalZ angle phase ch cfg := by
  simp [digitalXY, digitalZ]

/-- RX(π/2) and RX(-π/2) are different operations, also up to a phase, but get the same pulse. -/
theorem negative_angle_matters :
    ¬ ∃ c : ℂ, matRot (((-(Real.pi / 2) : ℝ)) : ℂ) .RX = c • matRot ((Real.pi / 2 : ℝ) : ℂ) .RX := by
  rintro ⟨c, h⟩
  have hs : sin ((Real.pi : ℂ) / 2 / 2) ≠ 0 := by
    have : Real.sin (Real.pi / 4) ≠ 0 := by rw [Real.sin_pi_div_four]; positivity
    rw [show ((Real.pi : ℂ) / 2 / 2) = ((Real.pi / 4 : ℝ) : ℂ) by push_cast; ring, ← ofReal_sin]
    exact_mod_cast this
  have hco : cos ((Real.pi : ℂ) / 2 / 2) ≠ 0 := by
    have : Real.cos (Real.pi / 4) ≠ 0 := by rw [Real.cos_pi_div_four]; positivity
    rw [show ((Real.pi : ℂ) / 2 / 2) = ((Real.pi / 4 : ℝ) : ℂ) by push_cast; ring, ← ofReal_cos]
    exact_mod_cast this
  have h00 := congrFun (congrFun h false) false
  have h01 := congrFun (congrFun h false) true
  simp only [matRX_apply, Matrix.smul_apply, smul_eq_mul, if_true, Bool.false_eq_true, if_false, ofReal_neg, ofReal_div, ofReal_ofNat,
    neg_div, cos_neg, sin_neg] at h00 h01
  have hc1 : c = 1 := by
    have : (c - 1) * cos ((Real.pi : ℂ) / 2 / 2) = 0 := by linear_combination -h00
    rcases mul_eq_zero.1 this with h' | h'
    · linear_combination h'
    · exact absurd h' hco
  rw [hc1] at h01
  have : (2 * I) * sin ((Real.pi : ℂ) / 2 / 2) = 0 := by linear_combination h01
  simp [hs] at this

/-- `RZ(0)` is not the identity: the minimum duration is filled with the maximal detuning. -/
theorem C77_counterexample_rz_zero (phase : ℝ) (ch : Channel) (hm : 1 / 10 ^ 11 ≤ ch.maxDet) (hc : 0 < ch.clock) :
    pulseOp (digitalZ 0 phase ch {}) =
      exp (I * (ch.minDuration / 1000 * ch.maxDet : ℝ) / 2) • matRot (ch.minDuration / 1000 * ch.maxDet : ℝ) .RZ := by
  have h0 := (C77_from_duration_partial 0 0 ch.clock ch.minDuration hc (Or.inl rfl)).1
  have h1 := (C77_from_duration_partial 0 ch.maxDet ch.clock ch.minDuration hc (Or.inr hm)).1
  have hr : roundEven 0 = 0 := by simp [roundEven]
  have hd : (fromDuration 0 0 ch.clock ch.minDuration).duration = ch.minDuration := by
    simp [fromDuration, hr]
  simp only [digitalZ, Option.getD_none, abs_zero, mul_zero, zero_div, pulseOp, h0, h1, hd]
  exact evolve_rz _ _ _

/-! ## Analog rotations -/

/-- Pulser rotates the phase in the other direction than qadence. -/
theorem pulserHam_eq (Ω δ φ : ℝ) : pulserHam Ω δ (-φ) = qadenceHam Ω δ φ := by
  have h1 : exp (I * (-φ : ℝ)) = cos φ - sin φ * I := by
    rw [show I * ((-φ : ℝ) : ℂ) = (-φ : ℂ) * I by push_cast; ring, exp_mul_I, cos_neg, sin_neg]; ring
  have h2 : exp (-(I * (-φ : ℝ))) = cos φ + sin φ * I := by
    rw [show -(I * ((-φ : ℝ) : ℂ)) = (φ : ℂ) * I by push_cast; ring, exp_mul_I]
  ext a b
  cases a <;> cases b <;> simp only [pulserHam, h1, h2, qadenceHam] <;> simp [matX_apply, matY_apply, matN_apply] <;> ring

/-- **C77** analog rotations with phase at most 0, amplitude and detuning each 0 or at least `1e-11`: the pulse is the documented evolution
with exactly these values, for the duration `1000 |α| / sqrt(ω² + δ²)` up to half a clock period (or the minimum duration, if that is
longer). -/
theorem C77_analog_rotation_partial (alpha omega phase detuning : ℝ) (ch : Channel) (hc : 0 < ch.clock) (hp : phase ≤ 0)
    (ho : omega = 0 ∨ 1 / 10 ^ 11 ≤ omega) (hd : detuning = 0 ∨ 1 / 10 ^ 11 ≤ detuning) :
    ∃ t : ℝ, pulseOp (analogRot alpha omega phase detuning ch {}) = evolve (t / 1000) (qadenceHam omega detuning phase) ∧
      (analogRot alpha omega phase detuning ch {}).amp.duration = t ∧
      (analogRot alpha omega phase detuning ch {}).det.duration = t ∧ (ch.minDuration : ℝ) ≤ t ∧
      ((ch.minDuration : ℝ) ≤ 1000 * |alpha| / Real.sqrt (omega ^ 2 + detuning ^ 2) →
        |t - 1000 * |alpha| / Real.sqrt (omega ^ 2 + detuning ^ 2)| ≤ (ch.clock : ℝ) / 2) := by
  have h1 := C77_from_duration_partial (1000 * |alpha| / Real.sqrt (omega ^ 2 + detuning ^ 2)) omega ch.clock ch.minDuration
    hc ho
  have h2 := C77_from_duration_partial (1000 * |alpha| / Real.sqrt (omega ^ 2 + detuning ^ 2)) detuning ch.clock ch.minDuration
    hc hd
  refine ⟨_, ?_, rfl, rfl, h1.2.1, h1.2.2.2.2⟩
  have ha : (analogRot alpha omega phase detuning ch {}).amp.value = omega := by
    have e : (analogRot alpha omega phase detuning ch {}).amp =
        fromDuration (1000 * |alpha| / Real.sqrt (omega ^ 2 + detuning ^ 2)) omega ch.clock ch.minDuration := by simp [analogRot]
    rw [e]
    exact h1.1
  have hdv : (analogRot alpha omega phase detuning ch {}).det.value = detuning := by
    exact h2.1
  have hph : (analogRot alpha omega phase detuning ch {}).phase = -phase := abs_of_nonpos hp
  rw [pulseOp, ha, hdv, hph, pulserHam_eq]

/-- Positive phases: the axis is reflected, e.g. the phase π/2 drives `+Y` instead of `-Y`. -/
theorem C77_counterexample_phase (alpha : ℝ) (ch : Channel) :
    (analogRot alpha 1 (Real.pi / 2) 0 ch {}).phase = Real.pi / 2 ∧
      pulserHam 1 0 (Real.pi / 2) ≠ qadenceHam 1 0 (Real.pi / 2) := by
  refine ⟨abs_of_pos (by positivity), fun h => ?_⟩
  have h01 := congrFun (congrFun h true) false
  have hc : cos ((Real.pi / 2 : ℝ) : ℂ) = 0 := by push_cast; exact cos_pi_div_two
  have hsn : sin ((Real.pi / 2 : ℝ) : ℂ) = 1 := by push_cast; exact sin_pi_div_two
  rw [pulserHam_resonant, qadenceHam] at h01
  simp only [hc, hsn, matX_apply, matY_apply, matN_apply, Matrix.smul_apply, Matrix.add_apply, Matrix.sub_apply, smul_eq_mul] at h01
  simp at h01
  have : I = 0 := by linear_combination h01
  exact I_ne_zero this

/-- Negative angles of analog rotations are lost as well. -/
theorem C77_counterexample_analog_sign (alpha omega phase detuning : ℝ) (ch : Channel) (cfg : Config) :
    analogRot (-alpha) omega phase detuning ch cfg = analogRot alpha omega phase detuning ch cfg := by
  simp [analogRot]

/-- **C77** the delay of an entangling pulse is a multiple of the clock period, not shorter than asked for, by less than one period
longer. -/
theorem C77_delay (duration : ℝ) (clock : ℕ) (hc : 0 < clock) :
    (∃ k : ℤ, delayDuration duration clock = clock * k) ∧ duration ≤ delayDuration duration clock ∧
      delayDuration duration clock < duration + clock := by
  have hcr : (0 : ℝ) < clock := by exact_mod_cast hc
  have h1 := Int.le_ceil (duration / clock)
  have h2 := Int.ceil_lt_add_one (duration / clock)
  rw [div_le_iff₀ hcr] at h1
  have h3 := mul_lt_mul_of_pos_right h2 hcr
  rw [add_mul, div_mul_cancel₀ _ hcr.ne', one_mul] at h3
  refine ⟨⟨_, rfl⟩, ?_, ?_⟩ <;> unfold delayDuration <;> linarith

/-! ## Sequences -/

mutual

/-- Digital rotations with angles which are not negative. -/
def Digital : PBlock → Prop
  | .rx a _ => 0 ≤ a
  | .ry a _ => 0 ≤ a
  | .rz a _ => 0 ≤ a
  | .composite bs => DigitalList bs
  | .rotation .. => False
  | .wait .. => False
  | .other => False

def DigitalList : List PBlock → Prop
  | [] => True
  | b :: bs => Digital b ∧ DigitalList bs

end

mutual

/-- `Near ex ez b U`: `U` is the operator of a circuit of rotations with angles which differ by at most `ex` (x, y) and `ez` (z) from
those of the block, up to phases. -/
inductive Near {n : ℕ} (ex ez : ℝ) : PBlock → Oper n → Prop
  | rx {a θ : ℝ} {q : ℕ} : |θ - a| ≤ ex → Near ex ez (.rx a q) (embed1 q (matRot θ .RX))
  | ry {a θ : ℝ} {q : ℕ} : |θ - a| ≤ ex → Near ex ez (.ry a q) (embed1 q (matRot θ .RY))
  | rz {a θ : ℝ} {q : ℕ} : |θ - a| ≤ ez → Near ex ez (.rz a q) (embed1 q (exp (I * θ / 2) • matRot θ .RZ))
  | composite {bs : List PBlock} {U : Oper n} : NearList ex ez bs U → Near ex ez (.composite bs) U

inductive NearList {n : ℕ} (ex ez : ℝ) : List PBlock → Oper n → Prop
  | nil : NearList ex ez [] 1
  | cons {b : PBlock} {bs : List PBlock} {U V : Oper n} : Near ex ez b U → NearList ex ez bs V → NearList ex ez (b :: bs) (V * U)

end

/-- What an item on one target does to a register of atoms without interaction. -/
noncomputable def itemOp {n : ℕ} (i : Item) : Oper n :=
  match i.targets with
  | some [q] => embed1 q (pulseOp i.pulse)
  | _ => 1

/-- The items of a sequence one after the other. -/
noncomputable def seqOp {n : ℕ} : List Item → Oper n
  | [] => 1
  | i :: is => seqOp is * itemOp i

theorem seqOp_append {n : ℕ} (is js : List Item) : (seqOp (is ++ js) : Oper n) = seqOp js * seqOp is := by
  induction is with
  | nil => simp [seqOp]
  | cons i is ih => simp [seqOp, ih, Matrix.mul_assoc]

section

variable {n : ℕ} (fuel : ℕ) (gl lo : Channel) (cfg : Config) (hc : 0 < lo.clock) (hd : 0 < lo.minDuration)
  (hm : 0 < cfg.amplitudeLocal.getD lo.maxAmp) (hz : 1 / 10 ^ 11 ≤ cfg.detuning.getD lo.maxDet)

include hc hd hm hz

mutual

/-- **C77** a circuit of RX, RY and RZ with angles which are not negative, nested in any way: the sequence does the rotations of the
circuit in its order on the right atoms, each angle up to the error of its pulse (atoms without interaction). -/
theorem C77_sequence_partial (b : PBlock) (hb : Digital b) :
    ∃ items, addPulses fuel n gl lo cfg b = .ok items ∧
      Near (max ((lo.clock : ℝ) / 2) ((lo.minDuration : ℝ) / 10) * cfg.amplitudeLocal.getD lo.maxAmp / 1000)
        (max ((lo.clock : ℝ) / 2) lo.minDuration * cfg.detuning.getD lo.maxDet / 1000) b (seqOp items : Oper n) := by
  cases b with
  | rx a q =>
    obtain ⟨θ, h1, h2, -⟩ := C77_xy_rotation_partial fuel a lo cfg hc hd hm
    rw [abs_of_nonneg (show 0 ≤ a from hb)] at h1
    exact ⟨_, rfl, by simpa [seqOp, itemOp, h2] using Near.rx h1⟩
  | ry a q =>
    obtain ⟨θ, h1, -, h2, -⟩ := C77_xy_rotation_partial fuel a lo cfg hc hd hm
    rw [abs_of_nonneg (show 0 ≤ a from hb)] at h1
    exact ⟨_, rfl, by simpa [seqOp, itemOp, h2] using Near.ry h1⟩
  | rz a q =>
    obtain ⟨θ, h1, -, h2⟩ := C77_z_rotation_partial a (Real.pi / 2) lo cfg hc hz
    rw [abs_of_nonneg (show 0 ≤ a from hb)] at h2
    exact ⟨_, rfl, by simpa [seqOp, itemOp, h1] using Near.rz h2⟩
  | composite bs =>
    obtain ⟨items, h1, h2⟩ := sequence_list bs hb
    exact ⟨items, h1, .composite h2⟩
  | rotation _ _ _ _ _ => exact absurd hb id
  | wait _ _ => exact absurd hb id
  | other => exact absurd hb id

theorem sequence_list (bs : List PBlock) (hb : DigitalList bs) :
    ∃ items, addPulsesList fuel n gl lo cfg bs = .ok items ∧
      NearList (max ((lo.clock : ℝ) / 2) ((lo.minDuration : ℝ) / 10) * cfg.amplitudeLocal.getD lo.maxAmp / 1000)
        (max ((lo.clock : ℝ) / 2) lo.minDuration * cfg.detuning.getD lo.maxDet / 1000) bs (seqOp items : Oper n) := by
  cases bs with
  | nil => exact ⟨[], rfl, .nil⟩
  | cons b bs =>
    obtain ⟨i1, h1, h2⟩ := C77_sequence_partial b hb.1
    obtain ⟨i2, h3, h4⟩ := sequence_list bs hb.2
    refine ⟨i1 ++ i2, ?_, ?_⟩
    · rw [addPulsesList, h1, h3]; rfl
    · rw [seqOp_append]
      exact .cons h2 h4

end

end

/-- The hypotheses are met by the idealised device (qadence/backends/pulser/devices.py:11-25): clock and minimum duration 1 ns, maximal
amplitude 6π, detuning 8π. -/
example : ∃ items, addPulses 0 2 ⟨1, 1, 6 * Real.pi, 8 * Real.pi, true⟩ ⟨1, 1, 6 * Real.pi, 8 * Real.pi, false⟩ {}
      (.composite [.rx (Real.pi / 2) 0, .composite [.rz 1 1, .ry 2 0]]) = .ok items ∧
    Near (max (1 / 2) (1 / 10) * (6 * Real.pi) / 1000) (max (1 / 2) 1 * (8 * Real.pi) / 1000)
      (.composite [.rx (Real.pi / 2) 0, .composite [.rz 1 1, .ry 2 0]]) (seqOp items : Oper 2) := by
  have hp := Real.two_le_pi
  have h := C77_sequence_partial (n := 2) 0 ⟨1, 1, 6 * Real.pi, 8 * Real.pi, true⟩ ⟨1, 1, 6 * Real.pi, 8 * Real.pi, false⟩ {}
    (by norm_num) (by norm_num) (by simp; linarith) (by simp; norm_num; linarith)
    (.composite [.rx (Real.pi / 2) 0, .composite [.rz 1 1, .ry 2 0]])
    (by simp only [Digital, DigitalList]; refine ⟨by positivity, ⟨by norm_num, by norm_num, trivial⟩, trivial⟩)
  simpa using h

/-- **C77** analog parts: a rotation on all atoms goes to the global channel, one on some atoms is targeted at exactly these on the local
channel; a wait on all atoms is a pulse without amplitude and detuning for the duration; a wait on some atoms of the register
adds nothing, one outside is refused; the items of parts follow each other. -/
theorem C77_analog_items (fuel n : ℕ) (gl lo : Channel) (cfg : Config) :
    (∀ a w p d, addPulses fuel n gl lo cfg (.rotation a w p d none) = .ok [⟨none, analogRot a w p d gl cfg⟩]) ∧
      (∀ a w p d qs, addPulses fuel n gl lo cfg (.rotation a w p d (some qs)) = .ok [⟨some qs, analogRot a w p d lo cfg⟩]) ∧
      (∀ t, ∃ pu : Pulse, addPulses fuel n gl lo cfg (.wait t none) = .ok [⟨none, pu⟩] ∧ pu.amp.duration = t ∧
        pulseOp pu = 1) ∧
      (∀ t qs, (∀ q ∈ qs, q < n) → addPulses fuel n gl lo cfg (.wait t (some qs)) = .ok []) ∧
      (∀ t qs, (∃ q ∈ qs, n ≤ q) → addPulses fuel n gl lo cfg (.wait t (some qs)) = .error .valueError) ∧
      ∀ b bs i is, addPulses fuel n gl lo cfg b = .ok i → addPulses fuel n gl lo cfg (.composite bs) = .ok is →
        addPulses fuel n gl lo cfg (.composite (b :: bs)) = .ok (i ++ is) := by
  refine ⟨fun _ _ _ _ => rfl, fun _ _ _ _ _ => rfl, fun t => ⟨_, rfl, rfl, ?_⟩, fun t qs h => ?_, fun t qs h => ?_,
    fun b bs i is h1 h2 => ?_⟩
  · rw [pulseOp, evolve_rz]
    ext a b
    cases a <;> cases b <;> simp [matRZ_apply]
  · rw [addPulses, if_pos (by simpa using h)]
  · rw [addPulses, if_neg (by simpa using h)]
  · rw [addPulses] at h2
    rw [addPulses, addPulsesList, h1, h2]; rfl

/-- A configured amplitude replaces that of the block, but the duration is still computed from the block: the rotation has another angle. -/
theorem C77_counterexample_configured_amplitude (alpha : ℝ) (ch : Channel) (hg : ch.isGlobal = true) :
    (analogRot alpha 1 0 0 ch { amplitudeGlobal := some 2 }).amp.value = 2 ∧
      (analogRot alpha 1 0 0 ch { amplitudeGlobal := some 2 }).amp.duration = (analogRot alpha 1 0 0 ch {}).amp.duration ∧
      (analogRot alpha 1 0 0 ch {}).amp.value = 1 := by
  have e : ∀ v : ℝ, 1 / 10 ^ 11 ≤ v → ∀ d s m, (fromDuration d v s m).value = v := by
    intro v hv d s m
    have := (C77_from_duration_partial d v 1 m one_pos (Or.inr hv)).1
    exact this
  refine ⟨?_, by simp [analogRot, hg, fromDuration], ?_⟩
  · rw [show (analogRot alpha 1 0 0 ch { amplitudeGlobal := some 2 }).amp =
      fromDuration (1000 * |alpha| / Real.sqrt (1 ^ 2 + 0 ^ 2)) 2 ch.clock ch.minDuration by simp [analogRot, hg]]
    exact e 2 (by norm_num) _ _ _
  · rw [show (analogRot alpha 1 0 0 ch {}).amp =
      fromDuration (1000 * |alpha| / Real.sqrt (1 ^ 2 + 0 ^ 2)) 1 ch.clock ch.minDuration by simp [analogRot]]
    exact e 1 (by norm_num) _ _ _

mutual

/-- A block without a branch occurs. -/
def HasOther : PBlock → Prop
  | .other => True
  | .composite bs => HasOtherList bs
  | .rx .. => False
  | .ry .. => False
  | .rz .. => False
  | .rotation .. => False
  | .wait .. => False

def HasOtherList : List PBlock → Prop
  | [] => False
  | b :: bs => HasOther b ∨ HasOtherList bs

end

mutual

/-- **C77** every block with an unsupported part is refused. -/
theorem C77_refused (fuel n : ℕ) (gl lo : Channel) (cfg : Config) (b : PBlock) (h : HasOther b) :
    ∃ e, addPulses fuel n gl lo cfg b = .error e := by
  cases b with
  | other => exact ⟨_, rfl⟩
  | composite bs => exact refused_list fuel n gl lo cfg bs h
  | rx _ _ => exact absurd h id
  | ry _ _ => exact absurd h id
  | rz _ _ => exact absurd h id
  | rotation _ _ _ _ _ => exact absurd h id
  | wait _ _ => exact absurd h id

theorem refused_list (fuel n : ℕ) (gl lo : Channel) (cfg : Config) (bs : List PBlock) (h : HasOtherList bs) :
    ∃ e, addPulsesList fuel n gl lo cfg bs = .error e := by
  cases bs with
  | nil => exact absurd h id
  | cons b bs =>
    rw [addPulsesList]
    cases hb : addPulses fuel n gl lo cfg b with
    | error e => exact ⟨e, rfl⟩
    | ok i =>
      rcases h with h | h
      · obtain ⟨e, he⟩ := C77_refused fuel n gl lo cfg b h
        rw [hb] at he; cases he
      · obtain ⟨e, he⟩ := refused_list fuel n gl lo cfg bs h
        exact ⟨e, by rw [he]; rfl⟩

end

end Qadence.Pulses
