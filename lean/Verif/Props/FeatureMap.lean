import Mathlib.Tactic
import Verif.Model.FeatureMap
import Verif.Spec.FeatureMap
import Verif.Proofs.BlockSem
import Verif.Proofs.GateSem
import Verif.Proofs.Except
import Verif.Props.Padding

/-!
# Feature maps (C46)
-/

namespace Qadence.FeatureMap

open Spec Block

variable {ord : List ℕ → List ℕ}

theorem eval_real (ρ : Env) (r : ℚ) : eval ρ (.num r 0) = ((r : ℝ) : ℂ) := by
  apply Complex.ext <;> simp [eval]

/-- The factor of a scaling. -/
def factor (f g : ℚ × ℚ) : ℚ := (max g.1 g.2 - min g.1 g.2) / (max f.1 f.2 - min f.1 f.2)

theorem scaling_eval {pi : ℚ} {t : FmType} {p : String} {f g : ℚ × ℚ} {e : Expr}
    (h : scaling pi t p (some f) (some g) = .ok e) :
    f.1 ≠ f.2 ∧ ∀ (ρ : Env) (x : ℝ), ρ.var p = x →
      eval ρ e = ((((if isCloseOne (factor f g) then 1 else factor f g : ℚ) : ℝ) * x
        + ((min g.1 g.2 - min f.1 f.2 * factor f g : ℚ) : ℝ) : ℝ) : ℂ) := by
  simp only [scaling, Option.getD_some] at h
  split at h
  · cases h
  · rename_i h0
    refine ⟨fun hf => h0 (by rw [hf]; simp), fun ρ x hx => ?_⟩
    have hs : (max g.1 g.2 - min g.1 g.2) / (max f.1 f.2 - min f.1 f.2) = factor f g := rfl
    rw [hs] at h
    split at h <;> rename_i hc <;> injection h with h <;> subst h
    · rw [if_pos hc, eval, eval_real, eval, hx]; push_cast; ring
    · rw [if_neg hc, eval, eval_real, eval, eval_real, eval, hx]; push_cast; ring

theorem affine_eq (f g : ℚ × ℚ) (x : ℝ) :
    affine f g x = (factor f g : ℝ) * x + ((min g.1 g.2 - min f.1 f.2 * factor f g : ℚ) : ℝ) := by
  rw [affine, factor]; push_cast; ring

/-- C46, scaling: the scaled feature is the affine function from the feature range to the target range, provided its factor is one
or not within `1e-9` of one. -/
theorem C46_scaling_affine_partial {pi : ℚ} {t : FmType} {p : String} {f g : ℚ × ℚ} {e : Expr}
    (h : scaling pi t p (some f) (some g) = .ok e)
    (hc : |(max g.1 g.2 - min g.1 g.2) - (max f.1 f.2 - min f.1 f.2)| = 0 ∨
      |(max g.1 g.2 - min g.1 g.2) - (max f.1 f.2 - min f.1 f.2)| >
        1 / 10 ^ 9 * max (max g.1 g.2 - min g.1 g.2) (max f.1 f.2 - min f.1 f.2))
    (ρ : Env) (x : ℝ) (hx : ρ.var p = x) : eval ρ e = (affine f g x : ℝ) := by
  obtain ⟨h0, h⟩ := scaling_eval h
  rw [h ρ x hx, affine_eq]
  have hd : 0 < max f.1 f.2 - min f.1 f.2 := by
    rcases lt_or_gt_of_ne h0 with h | h <;> simp [max_def, min_def, h.le, h.not_ge] <;> linarith
  have hg : 0 ≤ max g.1 g.2 - min g.1 g.2 := by
    have := min_le_max (a := g.1) (b := g.2); linarith
  rcases hc with hc | hc
  · have : factor f g = 1 := by
      rw [factor, div_eq_one_iff_eq hd.ne']
      have := abs_eq_zero.1 hc
      linarith
    simp [this]
  · have : isCloseOne (factor f g) = false := by
      rw [isCloseOne, decide_eq_false_iff_not, not_le]
      have hf0 : 0 ≤ factor f g := div_nonneg hg hd.le
      have e1 : factor f g * (max f.1 f.2 - min f.1 f.2) = max g.1 g.2 - min g.1 g.2 := by
        rw [factor, div_mul_cancel₀ _ hd.ne']
      rw [← e1] at hc
      have e2 : |factor f g * (max f.1 f.2 - min f.1 f.2) - (max f.1 f.2 - min f.1 f.2)|
          = |factor f g - 1| * (max f.1 f.2 - min f.1 f.2) := by
        rw [← sub_one_mul, abs_mul, abs_of_pos hd]
      have e3 : max (factor f g * (max f.1 f.2 - min f.1 f.2)) (max f.1 f.2 - min f.1 f.2)
          = max (factor f g) 1 * (max f.1 f.2 - min f.1 f.2) := by
        rw [max_mul_of_nonneg _ _ hd.le, one_mul]
      rw [e2, e3, ← mul_assoc] at hc
      have hc := lt_of_mul_lt_mul_right hc hd.le
      rw [abs_of_nonneg hf0, abs_one]
      have : 0 ≤ 1 / 1000000000 * max (factor f g) 1 := by positivity
      rw [max_eq_left this]
      norm_num at hc ⊢
      exact hc
    simp [this]

theorem affine_bijOn {f g : ℚ × ℚ} (hf : f.1 ≠ f.2) (hg : g.1 ≠ g.2) :
    StrictMono (affine f g) ∧ Set.BijOn (affine f g) (interval f) (interval g) := by
  have hd : (0 : ℝ) < (max f.1 f.2 : ℚ) - (min f.1 f.2 : ℚ) := by
    have : min f.1 f.2 < max f.1 f.2 := min_lt_max.2 hf
    have : ((min f.1 f.2 : ℚ) : ℝ) < (max f.1 f.2 : ℚ) := by exact_mod_cast this
    linarith
  have hg' : (0 : ℝ) < (max g.1 g.2 : ℚ) - (min g.1 g.2 : ℚ) := by
    have : min g.1 g.2 < max g.1 g.2 := min_lt_max.2 hg
    have : ((min g.1 g.2 : ℚ) : ℝ) < (max g.1 g.2 : ℚ) := by exact_mod_cast this
    linarith
  rw [interval, interval]
  unfold affine
  generalize ((max f.1 f.2 : ℚ) : ℝ) = b at *
  generalize ((min f.1 f.2 : ℚ) : ℝ) = a at *
  generalize ((max g.1 g.2 : ℚ) : ℝ) = d at *
  generalize ((min g.1 g.2 : ℚ) : ℝ) = c at *
  have hk : 0 < (d - c) / (b - a) := div_pos hg' hd
  have hkk : (b - a) * ((d - c) / (b - a)) = d - c := by field_simp
  have hm : StrictMono fun x => c + (x - a) * ((d - c) / (b - a)) := by
    intro x y hxy
    have := mul_lt_mul_of_pos_right (sub_lt_sub_right hxy a) hk
    simp only
    linarith
  refine ⟨hm, ?_, hm.injective.injOn, ?_⟩
  · rintro x ⟨h1, h2⟩
    constructor
    · have := mul_nonneg (sub_nonneg.2 h1) hk.le; simp only; linarith
    · have := mul_le_mul_of_nonneg_right (sub_le_sub_right h2 a) hk.le; simp only; linarith
  · rintro y ⟨h1, h2⟩
    refine ⟨a + (y - c) * ((b - a) / (d - c)), ⟨?_, ?_⟩, ?_⟩
    · have := mul_nonneg (sub_nonneg.2 h1) (div_pos hd hg').le; linarith
    · have := mul_le_mul_of_nonneg_right (sub_le_sub_right h2 c) (div_pos hd hg').le
      have e : (d - c) * ((b - a) / (d - c)) = b - a := by field_simp
      linarith
    · simp only
      have hd' := hd.ne'
      have hg'' := hg'.ne'
      field_simp
      ring

/-- C46, scaling: under the same condition the scaled feature is an increasing bijection of the feature range onto the target
range. -/
theorem C46_scaling_bijection_partial {pi : ℚ} {t : FmType} {p : String} {f g : ℚ × ℚ} {e : Expr}
    (h : scaling pi t p (some f) (some g) = .ok e) (hg : g.1 ≠ g.2)
    (hc : |(max g.1 g.2 - min g.1 g.2) - (max f.1 f.2 - min f.1 f.2)| = 0 ∨
      |(max g.1 g.2 - min g.1 g.2) - (max f.1 f.2 - min f.1 f.2)| >
        1 / 10 ^ 9 * max (max g.1 g.2 - min g.1 g.2) (max f.1 f.2 - min f.1 f.2)) :
    ∃ a : ℝ → ℝ, StrictMono a ∧ Set.BijOn a (interval f) (interval g) ∧
      ∀ (ρ : Env) (x : ℝ), ρ.var p = x → eval ρ e = a x :=
  ⟨affine f g, (affine_bijOn (scaling_eval h).1 hg).1, (affine_bijOn (scaling_eval h).1 hg).2,
    C46_scaling_affine_partial h hc⟩

/-- C46, scaling: in any case the scaled feature is off by at most `1e-9` relative to the larger factor. -/
theorem C46_scaling_error {pi : ℚ} {t : FmType} {p : String} {f g : ℚ × ℚ} {e : Expr}
    (h : scaling pi t p (some f) (some g) = .ok e) (ρ : Env) (x : ℝ) (hx : ρ.var p = x) :
    ‖eval ρ e - (affine f g x : ℝ)‖ ≤
      1 / 10 ^ 9 * max ((((max g.1 g.2 - min g.1 g.2) / (max f.1 f.2 - min f.1 f.2) : ℚ)) : ℝ) 1 * |x| := by
  obtain ⟨h0, h⟩ := scaling_eval h
  rw [h ρ x hx, affine_eq, ← Complex.ofReal_sub, Complex.norm_real, Real.norm_eq_abs]
  have hfac : (max g.1 g.2 - min g.1 g.2) / (max f.1 f.2 - min f.1 f.2) = factor f g := rfl
  rw [hfac]
  split
  · rename_i hc
    rw [isCloseOne, decide_eq_true_eq] at hc
    have hf0 : 0 ≤ factor f g := by
      refine div_nonneg ?_ ?_
      · have := min_le_max (a := g.1) (b := g.2); linarith
      · have := min_le_max (a := f.1) (b := f.2); linarith
    rw [abs_of_nonneg hf0, abs_one, max_eq_left (by positivity)] at hc
    have hc : |(factor f g : ℝ) - 1| ≤ 1 / 1000000000 * max (factor f g : ℝ) 1 := by
      have := (Rat.cast_le (K := ℝ)).2 hc
      push_cast at this
      exact this
    rw [add_sub_add_right_eq_sub, ← sub_mul, abs_mul]
    refine mul_le_mul_of_nonneg_right ?_ (abs_nonneg x)
    rw [abs_sub_comm]
    push_cast
    norm_num at hc ⊢
    exact hc
  · rw [sub_self, abs_zero]
    positivity

/-- C46, scaling fails exactly for a feature range without length. -/
theorem C46_scaling_degenerate (pi : ℚ) (t : FmType) (p : String) (f g : ℚ × ℚ) :
    (f.1 = f.2 → scaling pi t p (some f) (some g) = .error .zeroDivisionError) ∧
    (f.1 ≠ f.2 → ∃ e, scaling pi t p (some f) (some g) = .ok e) := by
  constructor
  · intro h
    rw [scaling]
    simp [h]
  · intro h
    have : min f.1 f.2 < max f.1 f.2 := min_lt_max.2 h
    have h0 : max f.1 f.2 - min f.1 f.2 ≠ 0 := by linarith
    simp only [scaling, Option.getD_some, if_neg h0]
    split <;> exact ⟨_, rfl⟩

/-- C46, defaults: a missing range is the natural one of the basis. -/
theorem C46_scaling_defaults (pi : ℚ) (t : FmType) (p : String) (fr tr : Option (ℚ × ℚ)) :
    ∃ d : ℚ × ℚ, scaling pi t p fr tr = scaling pi t p (some (fr.getD d)) (some (tr.getD d)) ∧
      (t = .fourier → d = (0, 2 * pi)) ∧ (t = .chebyshev → d = (-1, 1)) ∧ (∀ f, t = .custom f → d = (0, 1)) := by
  refine ⟨setRange pi t, rfl, ?_, ?_, ?_⟩
  · rintro rfl; rfl
  · rintro rfl; rfl
  · rintro f rfl; rfl

/-- C46, defaults: without ranges the feature is not changed. -/
theorem C46_scaling_identity {pi : ℚ} (hpi : 0 < pi) (t : FmType) (p : String) :
    ∃ e, scaling pi t p none none = .ok e ∧ ∀ (ρ : Env) (x : ℝ), ρ.var p = x → eval ρ e = x := by
  have hd : (setRange pi t).1 ≠ (setRange pi t).2 := by
    cases t <;> simp only [setRange] <;> intro h <;> norm_num at h <;> linarith
  have h0 : scaling pi t p none none = scaling pi t p (some (setRange pi t)) (some (setRange pi t)) := rfl
  obtain ⟨e, he⟩ := (C46_scaling_degenerate pi t p (setRange pi t) (setRange pi t)).2 hd
  refine ⟨e, h0.trans he, fun ρ x hx => ?_⟩
  rw [C46_scaling_affine_partial he (.inl (by simp)) ρ x hx, affine]
  have : ((max (setRange pi t).1 (setRange pi t).2 : ℚ) : ℝ) - (min (setRange pi t).1 (setRange pi t).2 : ℚ) ≠ 0 := by
    have := min_lt_max.2 hd
    have : ((min (setRange pi t).1 (setRange pi t).2 : ℚ) : ℝ) < (max (setRange pi t).1 (setRange pi t).2 : ℚ) := by
      exact_mod_cast this
    linarith
  rw [div_self this]
  congr 1
  ring

/-- C46 is false when the factor is close to one but is not one: with the feature range `(0, 1)` and the target range
`(0, 1 + 1e-10)` the scaled feature does not reach the end of the target range. -/
theorem C46_counterexample_isclose (pi : ℚ) (t : FmType) (p : String) :
    ∃ e, scaling pi t p (some (0, 1)) (some (0, 1 + 1 / 10 ^ 10)) = .ok e ∧
      ∀ (ρ : Env) (x : ℝ), ρ.var p = x → x ∈ interval (0, 1) → eval ρ e ≠ ((1 + 1 / 10 ^ 10 : ℝ) : ℂ) := by
  obtain ⟨e, he⟩ := (C46_scaling_degenerate pi t p (0, 1) (0, 1 + 1 / 10 ^ 10)).2 (by norm_num)
  refine ⟨e, he, fun ρ x hx hi => ?_⟩
  rw [(scaling_eval he).2 ρ x hx]
  have : isCloseOne (factor (0, 1) (0, 1 + 1 / 10 ^ 10)) = true := by
    rw [isCloseOne, decide_eq_true_eq, factor]
    norm_num [abs_of_pos]
  rw [if_pos this]
  intro h
  have h := Complex.ofReal_injective h
  rw [interval] at hi
  norm_num at h hi
  linarith [hi.2]

end Qadence.FeatureMap
