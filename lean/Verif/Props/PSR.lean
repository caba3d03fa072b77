import Mathlib.Tactic
import Mathlib.Analysis.Convex.SpecificFunctions.Deriv
import Verif.Model.PSR
import Verif.Spec.Trig
import Verif.Proofs.Except
import Verif.Proofs.PyDict

/-!
# Parameter-shift rules (C28, C29)
-/

namespace Qadence.PSR

open Real Qadence.Spec

variable {ι : Type}

theorem set_set (p : Params) (a : String) (x y : ℝ) : PyDict.set (PyDict.set p a x) a y = PyDict.set p a y := by
  induction p with
  | nil => simp [PyDict.set]
  | cons kv p ih =>
    obtain ⟨k, v⟩ := kv
    by_cases h : k = a
    · simp [PyDict.set, h]
    · simp [PyDict.set, h, ih]

theorem difference_ok {f : ExpFn ι} {p : Params} {name : String} {v : ℝ} {E : ℝ → ι → ℝ}
    (hv : PyDict.get? p name = some v) (hf : ∀ x, f (PyDict.set p name x) = .ok (E x)) (s : ℝ) :
    difference f p name s = .ok fun i => E (v + s) i - E (v - s) i := by
  simp only [difference, shifted, hv, ok_bind, hf, ← sub_eq_add_neg]
  rfl

/-- A rule which is a combination of symmetric differences with the right weights for the frequencies in `gaps`. -/
def Rule (gaps : Set ℝ) (R : ExpFn ι → Params → String → Except PyErr (ι → ℝ)) : Prop :=
  ∃ (k : ℕ) (c s : Fin k → ℝ), (∀ g ∈ gaps, ∑ j, c j * (2 * sin (g * s j / 2)) = g / 2) ∧
    ∀ (f : ExpFn ι) (p : Params) (name : String) (v : ℝ) (E : ℝ → ι → ℝ), PyDict.get? p name = some v →
      (∀ x, f (PyDict.set p name x) = .ok (E x)) →
      R f p name = .ok fun i => ∑ j, c j * (E (v + s j) i - E (v - s j) i)

theorem weights_exact {gaps : Set ℝ} {k : ℕ} {c s : Fin k → ℝ}
    (hc : ∀ g ∈ gaps, ∑ j, c j * (2 * sin (g * s j / 2)) = g / 2) {h : ℝ → ℝ} (hh : h ∈ Trig gaps) :
    ∀ v, HasDerivAt h (∑ j, c j * (h (v + s j) - h (v - s j))) v := by
  intro v
  induction hh using Submodule.span_induction with
  | mem h hh =>
    rcases hh with (hh | ⟨g, hg, rfl⟩) | ⟨g, hg, rfl⟩
    · rw [Set.mem_singleton_iff] at hh
      subst hh
      simpa using hasDerivAt_const v (1 : ℝ)
    · have h1 : HasDerivAt (fun x : ℝ => cos (g * x / 2)) (-sin (g * v / 2) * (g / 2)) v := by
        have : HasDerivAt (fun x : ℝ => g * x / 2) (g / 2) v := by
          simpa using ((hasDerivAt_id v).const_mul g).div_const 2
        exact (hasDerivAt_cos _).comp v this
      convert h1 using 1
      rw [← hc g hg, Finset.mul_sum]
      refine Finset.sum_congr rfl fun j _ => ?_
      have e1 : g * (v + s j) / 2 = g * v / 2 + g * s j / 2 := by ring
      have e2 : g * (v - s j) / 2 = g * v / 2 - g * s j / 2 := by ring
      beta_reduce
      rw [e1, e2, cos_add, cos_sub]
      ring
    · have h1 : HasDerivAt (fun x : ℝ => sin (g * x / 2)) (cos (g * v / 2) * (g / 2)) v := by
        have : HasDerivAt (fun x : ℝ => g * x / 2) (g / 2) v := by
          simpa using ((hasDerivAt_id v).const_mul g).div_const 2
        exact (hasDerivAt_sin _).comp v this
      convert h1 using 1
      rw [← hc g hg, Finset.mul_sum]
      refine Finset.sum_congr rfl fun j _ => ?_
      have e1 : g * (v + s j) / 2 = g * v / 2 + g * s j / 2 := by ring
      have e2 : g * (v - s j) / 2 = g * v / 2 - g * s j / 2 := by ring
      beta_reduce
      rw [e1, e2, sin_add, sin_sub]
      ring
  | zero => simpa using hasDerivAt_const v (0 : ℝ)
  | add a b _ _ ha hb =>
    have e : ∑ j, c j * ((a + b) (v + s j) - (a + b) (v - s j)) =
        ∑ j, c j * (a (v + s j) - a (v - s j)) + ∑ j, c j * (b (v + s j) - b (v - s j)) := by
      rw [← Finset.sum_add_distrib]
      refine Finset.sum_congr rfl fun j _ => ?_
      simp only [Pi.add_apply]
      ring
    rw [e]
    exact ha.add hb
  | smul r a _ ha =>
    have e : ∑ j, c j * ((r • a) (v + s j) - (r • a) (v - s j)) = r * ∑ j, c j * (a (v + s j) - a (v - s j)) := by
      rw [Finset.mul_sum]
      refine Finset.sum_congr rfl fun j _ => ?_
      simp only [Pi.smul_apply, smul_eq_mul]
      ring
    rw [e]
    exact ha.const_mul r

theorem Trig.mono {G H : Set ℝ} (h : G ⊆ H) : Trig G ≤ Trig H := by
  refine Submodule.span_mono ?_
  rintro f ((hf | ⟨g, hg, hf⟩) | ⟨g, hg, hf⟩)
  · exact .inl (.inl hf)
  · exact .inl (.inr ⟨g, h hg, hf⟩)
  · exact .inr ⟨g, h hg, hf⟩

/-- Trigonometric polynomials can be translated. -/
theorem Trig.translate {G : Set ℝ} {h : ℝ → ℝ} (hh : h ∈ Trig G) (s : ℝ) : (fun x => h (x + s)) ∈ Trig G := by
  induction hh using Submodule.span_induction with
  | mem h hh =>
    rcases hh with (hh | ⟨g, hg, rfl⟩) | ⟨g, hg, rfl⟩
    · rw [Set.mem_singleton_iff] at hh
      subst hh
      exact Submodule.subset_span (.inl (.inl rfl))
    · have : (fun x : ℝ => cos (g * (x + s) / 2)) =
          cos (g * s / 2) • (fun x => cos (g * x / 2)) + (-sin (g * s / 2)) • (fun x => sin (g * x / 2)) := by
        funext x
        have e : g * (x + s) / 2 = g * x / 2 + g * s / 2 := by ring
        simp only [e, cos_add, Pi.add_apply, Pi.smul_apply, smul_eq_mul]
        ring
      rw [this]
      exact Submodule.add_mem _ (Submodule.smul_mem _ _ (Submodule.subset_span (.inl (.inr ⟨g, hg, rfl⟩))))
        (Submodule.smul_mem _ _ (Submodule.subset_span (.inr ⟨g, hg, rfl⟩)))
    · have : (fun x : ℝ => sin (g * (x + s) / 2)) =
          cos (g * s / 2) • (fun x => sin (g * x / 2)) + sin (g * s / 2) • (fun x => cos (g * x / 2)) := by
        funext x
        have e : g * (x + s) / 2 = g * x / 2 + g * s / 2 := by ring
        simp only [e, sin_add, Pi.add_apply, Pi.smul_apply, smul_eq_mul]
        ring
      rw [this]
      exact Submodule.add_mem _ (Submodule.smul_mem _ _ (Submodule.subset_span (.inr ⟨g, hg, rfl⟩)))
        (Submodule.smul_mem _ _ (Submodule.subset_span (.inl (.inr ⟨g, hg, rfl⟩))))
  | zero => exact Submodule.zero_mem _
  | add a b _ _ ha hb => exact Submodule.add_mem _ ha hb
  | smul r a _ ha => exact Submodule.smul_mem _ r ha

/-! ### Rules are exact -/

/-- First derivative. -/
theorem Rule.exact {G : Set ℝ} {R : ExpFn ι → Params → String → Except PyErr (ι → ℝ)} (hR : Rule G R) {f : ExpFn ι}
    {p : Params} {name : String} {v : ℝ} {E : ℝ → ι → ℝ} (hv : PyDict.get? p name = some v)
    (hf : ∀ x, f (PyDict.set p name x) = .ok (E x)) (hE : ∀ i, (fun x => E x i) ∈ Trig G) :
    ∃ d, R f p name = .ok d ∧ ∀ i, HasDerivAt (fun x => E x i) (d i) v := by
  obtain ⟨k, c, s, hc, h⟩ := hR
  exact ⟨_, h f p name v E hv hf, fun i => weights_exact hc (hE i) v⟩

/-- Nested application to the same parameter gives the second derivative. -/
theorem Rule.exact_second {G : Set ℝ} {R : ExpFn ι → Params → String → Except PyErr (ι → ℝ)} (hR : Rule G R)
    {f : ExpFn ι} {p : Params} {name : String} {v : ℝ} {E : ℝ → ι → ℝ} (hv : PyDict.get? p name = some v)
    (hf : ∀ x, f (PyDict.set p name x) = .ok (E x)) (hE : ∀ i, (fun x => E x i) ∈ Trig G) :
    ∃ d, R (fun q => R f q name) p name = .ok d ∧
      ∃ E' : ℝ → ι → ℝ, (∀ i x, HasDerivAt (fun x => E x i) (E' x i) x) ∧ ∀ i, HasDerivAt (fun x => E' x i) (d i) v := by
  obtain ⟨k, c, s, hc, h⟩ := hR
  have h1 : ∀ x, R f (PyDict.set p name x) name = .ok fun i => ∑ j, c j * (E (x + s j) i - E (x - s j) i) := by
    intro x
    refine h f _ name x E (by rw [PyDict.get?_set, if_pos rfl]) fun y => ?_
    rw [set_set, hf]
  refine ⟨_, h (fun q => R f q name) p name v _ hv h1, fun x i => ∑ j, c j * (E (x + s j) i - E (x - s j) i),
    fun i x => weights_exact hc (hE i) x, fun i => ?_⟩
  have h2 : (fun x => ∑ j, c j * (E (x + s j) i - E (x - s j) i)) ∈ Trig G := by
    have : (fun x => ∑ j, c j * (E (x + s j) i - E (x - s j) i)) =
        ∑ j, c j • ((fun x => E (x + s j) i) - fun x => E (x + -s j) i) := by
      funext x
      simp [Finset.sum_apply, sub_eq_add_neg, mul_add]
    rw [this]
    exact Submodule.sum_mem _ fun j _ => Submodule.smul_mem _ _
      (Submodule.sub_mem _ (Trig.translate (hE i) _) (Trig.translate (hE i) _))
  exact weights_exact hc h2 v

/-- Nested application to two parameters gives the mixed derivative. -/
theorem Rule.exact_mixed {G H : Set ℝ} {R Q : ExpFn ι → Params → String → Except PyErr (ι → ℝ)} (hR : Rule G R)
    (hQ : Rule H Q) {f : ExpFn ι} {p : Params} {a b : String} (hab : a ≠ b) {v w : ℝ} {E : ℝ → ℝ → ι → ℝ}
    (hv : PyDict.get? p a = some v) (hw : PyDict.get? p b = some w)
    (hf : ∀ x y, f (PyDict.set (PyDict.set p a x) b y) = .ok (E x y))
    (hE : ∀ i y, (fun x => E x y i) ∈ Trig G) (hE' : ∀ i x, (fun y => E x y i) ∈ Trig H) :
    ∃ d, R (fun q => Q f q b) p a = .ok d ∧
      ∃ D : ℝ → ι → ℝ, (∀ i x, HasDerivAt (fun y => E x y i) (D x i) w) ∧ ∀ i, HasDerivAt (fun x => D x i) (d i) v := by
  obtain ⟨k, c, s, hc, h⟩ := hR
  obtain ⟨l, c', s', hc', h'⟩ := hQ
  have h1 : ∀ x, Q f (PyDict.set p a x) b = .ok fun i => ∑ j, c' j * (E x (w + s' j) i - E x (w - s' j) i) := by
    intro x
    exact h' f _ b w (E x) (by rw [PyDict.get?_set, if_neg hab, hw]) (hf x)
  refine ⟨_, h (fun q => Q f q b) p a v _ hv h1, fun x i => ∑ j, c' j * (E x (w + s' j) i - E x (w - s' j) i),
    fun i x => weights_exact hc' (hE' i x) w, fun i => ?_⟩
  have h2 : (fun x => ∑ j, c' j * (E x (w + s' j) i - E x (w - s' j) i)) ∈ Trig G := by
    have : (fun x => ∑ j, c' j * (E x (w + s' j) i - E x (w - s' j) i)) =
        ∑ j, c' j • ((fun x => E x (w + s' j) i) - fun x => E x (w - s' j) i) := by
      funext x
      simp [Finset.sum_apply]
    rw [this]
    exact Submodule.sum_mem _ fun j _ => Submodule.smul_mem _ _ (Submodule.sub_mem _ (hE i _) (hE i _))
  exact weights_exact hc h2 v

/-! ### The two rules -/

theorem singleGap_rule {gap shift : ℝ} (h : sin (gap * shift / 2) ≠ 0) :
    Rule {gap} (singleGapPsr (ι := ι) gap shift) := by
  refine ⟨1, fun _ => gap / (4 * sin (gap * shift / 2)), fun _ => shift, ?_, ?_⟩
  · intro g hg
    rw [Set.mem_singleton_iff] at hg
    subst hg
    simp only [Finset.univ_unique, Finset.sum_const, Finset.card_singleton, one_smul]
    field_simp
    norm_num
  · intro f p name v E hv hf
    rw [singleGapPsr, difference_ok hv hf, ok_bind, pure_eq_ok]
    congr 1
    funext i
    simp only [Finset.univ_unique, Finset.sum_const, Finset.card_singleton, one_smul]
    ring

theorem multiGap_rule {k : ℕ} (hk : k ≠ 0) {gaps shifts : Fin k → ℝ} (h : IsUnit (shiftMatrix gaps shifts).det) :
    Rule (Set.range gaps) (multiGapPsr (ι := ι) gaps shifts) := by
  refine ⟨k, fun i => ∑ j, gaps j * (shiftMatrix gaps shifts)⁻¹ j i, shifts, ?_, ?_⟩
  · rintro g ⟨m, rfl⟩
    have h1 : ∀ i, 2 * sin (gaps m * shifts i / 2) = shiftMatrix gaps shifts i m / 2 := by
      intro i
      simp only [shiftMatrix, Matrix.of_apply]
      rw [mul_comm (shifts i)]
      ring
    have h2 : (shiftMatrix gaps shifts)⁻¹ * shiftMatrix gaps shifts = 1 := Matrix.nonsing_inv_mul _ h
    calc ∑ i, (∑ j, gaps j * (shiftMatrix gaps shifts)⁻¹ j i) * (2 * sin (gaps m * shifts i / 2))
        = ∑ j, gaps j * (((shiftMatrix gaps shifts)⁻¹ * shiftMatrix gaps shifts) j m / 2) := by
          simp only [h1, Finset.sum_mul, Matrix.mul_apply]
          rw [Finset.sum_comm]
          refine Finset.sum_congr rfl fun j _ => ?_
          rw [Finset.sum_div, Finset.mul_sum]
          exact Finset.sum_congr rfl fun i _ => by ring
      _ = gaps m / 2 := by
          rw [h2]
          simp only [Matrix.one_apply]
          rw [Finset.sum_eq_single m]
          · simp [div_eq_mul_inv]
          · intro j _ hj
            simp [hj]
          · simp
  · intro f p name v E hv hf
    have hm : (List.finRange k).mapM (fun i => difference f p name (shifts i)) =
        .ok ((List.finRange k).map fun j i => E (v + shifts j) i - E (v - shifts j) i) :=
      mapM_ok_map fun j _ => difference_ok hv hf _
    rw [multiGapPsr, hm, ok_bind, if_neg hk, if_pos h, pure_eq_ok]
    congr 1
    funext x
    have hF : ∀ i : Fin k, ((List.finRange k).map fun j i => E (v + shifts j) i - E (v - shifts j) i).getD i 0 x =
        E (v + shifts i) x - E (v - shifts i) x := by
      intro i
      simp [List.getD]
    simp only [hF, Matrix.mulVec, dotProduct]
    simp only [Finset.sum_mul, Finset.mul_sum]
    rw [Finset.sum_comm]
    refine Finset.sum_congr rfl fun i _ => Finset.sum_congr rfl fun j _ => ?_
    ring

theorem trig_form (a b c g : ℝ) {G : Set ℝ} (hg : g ∈ G) :
    (fun x => a + b * cos (g * x / 2) + c * sin (g * x / 2)) ∈ Trig G := by
  have : (fun x => a + b * cos (g * x / 2) + c * sin (g * x / 2)) =
      a • (fun _ => (1 : ℝ)) + b • (fun x => cos (g * x / 2)) + c • (fun x => sin (g * x / 2)) := by
    funext x
    simp
  rw [this]
  exact Submodule.add_mem _ (Submodule.add_mem _ (Submodule.smul_mem _ _ (Submodule.subset_span (.inl (.inl rfl))))
    (Submodule.smul_mem _ _ (Submodule.subset_span (.inl (.inr ⟨g, hg, rfl⟩)))))
    (Submodule.smul_mem _ _ (Submodule.subset_span (.inr ⟨g, hg, rfl⟩)))

theorem deriv_form (a b c g v : ℝ) : HasDerivAt (fun x => a + b * cos (g * x / 2) + c * sin (g * x / 2))
    (g / 2 * (c * cos (g * v / 2) - b * sin (g * v / 2))) v := by
  have h0 : HasDerivAt (fun x : ℝ => g * x / 2) (g / 2) v := by
    simpa using ((hasDerivAt_id v).const_mul g).div_const 2
  have h1 := ((hasDerivAt_cos (g * v / 2)).comp v h0).const_mul b
  have h2 := ((hasDerivAt_sin (g * v / 2)).comp v h0).const_mul c
  have h3 := (h1.const_add a).add h2
  have e : b * (-sin (g * v / 2) * (g / 2)) + c * (cos (g * v / 2) * (g / 2)) =
      g / 2 * (c * cos (g * v / 2) - b * sin (g * v / 2)) := by ring
  rw [e] at h3
  exact h3

/-- **C28** For expectation values of the form a + b cos(g x / 2) + c sin(g x / 2), where g is the spectral gap of the
generator, the single-gap rule returns the derivative at every point for every admissible shift. -/
theorem C28_single_gap {gap shift : ℝ} (hs : sin (gap * shift / 2) ≠ 0) (a b c : ι → ℝ) {f : ExpFn ι} {p : Params}
    {name : String} {v : ℝ} (hv : PyDict.get? p name = some v)
    (hf : ∀ x, f (PyDict.set p name x) = .ok fun i => a i + b i * cos (gap * x / 2) + c i * sin (gap * x / 2)) :
    ∃ d, singleGapPsr gap shift f p name = .ok d ∧
      (∀ i, HasDerivAt (fun x => a i + b i * cos (gap * x / 2) + c i * sin (gap * x / 2)) (d i) v) ∧
      ∀ i, d i = gap / 2 * (c i * cos (gap * v / 2) - b i * sin (gap * v / 2)) := by
  obtain ⟨d, h1, h2⟩ := (singleGap_rule hs).exact hv hf fun i => trig_form (a i) (b i) (c i) gap rfl
  exact ⟨d, h1, h2, fun i => (h2 i).unique (deriv_form (a i) (b i) (c i) gap v)⟩

/-- **C28**, second order: applying the rule to itself returns the second derivative. -/
theorem C28_second_order {gap shift : ℝ} (hs : sin (gap * shift / 2) ≠ 0) (a b c : ι → ℝ) {f : ExpFn ι} {p : Params}
    {name : String} {v : ℝ} (hv : PyDict.get? p name = some v)
    (hf : ∀ x, f (PyDict.set p name x) = .ok fun i => a i + b i * cos (gap * x / 2) + c i * sin (gap * x / 2)) :
    ∃ d, singleGapPsr gap shift (fun q => singleGapPsr gap shift f q name) p name = .ok d ∧
      (∀ i, HasDerivAt (deriv fun x => a i + b i * cos (gap * x / 2) + c i * sin (gap * x / 2)) (d i) v) ∧
      ∀ i, d i = -(gap / 2) ^ 2 * (b i * cos (gap * v / 2) + c i * sin (gap * v / 2)) := by
  obtain ⟨d, h1, E', h2, h3⟩ := (singleGap_rule hs).exact_second hv hf fun i => trig_form (a i) (b i) (c i) gap rfl
  have key : ∀ i, (fun x => E' x i) = fun x => 0 + gap / 2 * c i * cos (gap * x / 2) + -(gap / 2 * b i) * sin (gap * x / 2) := by
    intro i
    funext x
    rw [(h2 i x).unique (deriv_form (a i) (b i) (c i) gap x)]
    ring
  refine ⟨d, h1, fun i => ?_, fun i => ?_⟩
  · have : (deriv fun x => a i + b i * cos (gap * x / 2) + c i * sin (gap * x / 2)) = fun x => E' x i :=
      funext fun x => (h2 i x).deriv
    rw [this]
    exact h3 i
  · have := h3 i
    rw [key i] at this
    rw [this.unique (deriv_form _ _ _ gap v)]
    ring

/-- A function with gap 2 (such as for a rotation), shifted by π / 4. -/
example : ∃ d, singleGapPsr (ι := Unit) 2 (0.5 * (π / 2))
    (fun p => .ok fun _ => 1 + 2 * cos (2 * (PyDict.get? p "x").getD 0 / 2) + 3 * sin (2 * (PyDict.get? p "x").getD 0 / 2))
    [("y", 5), ("x", 0)] "x" = .ok d ∧ d () = 3 := by
  have hs : sin (2 * (0.5 * (π / 2)) / 2) ≠ 0 := by
    have : 2 * (0.5 * (π / 2)) / 2 = π / 4 := by ring
    rw [this, sin_pi_div_four]
    positivity
  obtain ⟨d, h, -, hd⟩ := C28_single_gap (ι := Unit) hs (fun _ => 1) (fun _ => 2) (fun _ => 3)
    (f := fun p => .ok fun _ => 1 + 2 * cos (2 * (PyDict.get? p "x").getD 0 / 2) +
      3 * sin (2 * (PyDict.get? p "x").getD 0 / 2)) (p := [("y", 5), ("x", 0)]) (name := "x") (v := 0) rfl
    (fun x => by rw [PyDict.get?_set, if_pos rfl]; rfl)
  refine ⟨d, h, ?_⟩
  rw [hd]
  simp

/-- **C28** fails for the default shift and the gap 16, which belongs for example to `HamEvo(4 * Z(0), t)` (eigenvalues
±4, doubled by `uuid_to_eigen`, and a shift prefactor of 0.25): the rule divides zero by zero. -/
theorem C28_counterexample_default_shift (a b c v : ℝ) :
    let shift := 0.25 * (π / 2)
    let E := fun x => a + b * cos (16 * x / 2) + c * sin (16 * x / 2)
    E (v + shift) - E (v - shift) = 0 ∧ 4 * sin (16 * shift / 2) = 0 := by
  have h1 : 16 * (0.25 * (π / 2)) / 2 = π := by ring
  refine ⟨?_, by rw [h1, sin_pi, mul_zero]⟩
  have e1 : 16 * (v + 0.25 * (π / 2)) / 2 = 8 * v + π := by ring
  have e2 : 16 * (v - 0.25 * (π / 2)) / 2 = 8 * v - π := by ring
  simp only [e1, e2, cos_add_pi, sin_add_pi, cos_sub_pi, sin_sub_pi]
  ring

/-- **C29** For every trigonometric polynomial with the given gaps and all shifts with a solvable system, the multi-gap
rule returns the derivative. -/
theorem C29_multi_gap {k : ℕ} (hk : k ≠ 0) {gaps shifts : Fin k → ℝ} (h : IsUnit (shiftMatrix gaps shifts).det)
    {E : ℝ → ι → ℝ} (hE : ∀ i, (fun x => E x i) ∈ Trig (Set.range gaps)) {f : ExpFn ι} {p : Params} {name : String}
    {v : ℝ} (hv : PyDict.get? p name = some v) (hf : ∀ x, f (PyDict.set p name x) = .ok (E x)) :
    ∃ d, multiGapPsr gaps shifts f p name = .ok d ∧ ∀ i, HasDerivAt (fun x => E x i) (d i) v :=
  (multiGap_rule hk h).exact hv hf hE

/-- **C29** in coordinates: coefficients for every gap, the derivative written out. -/
theorem C29_multi_gap_formula {k : ℕ} (hk : k ≠ 0) {gaps shifts : Fin k → ℝ}
    (h : IsUnit (shiftMatrix gaps shifts).det) (a : ι → ℝ) (b c : ι → Fin k → ℝ) {f : ExpFn ι} {p : Params}
    {name : String} {v : ℝ} (hv : PyDict.get? p name = some v)
    (hf : ∀ x, f (PyDict.set p name x) =
      .ok fun i => a i + ∑ j, (b i j * cos (gaps j * x / 2) + c i j * sin (gaps j * x / 2))) :
    multiGapPsr gaps shifts f p name =
      .ok fun i => ∑ j, gaps j / 2 * (c i j * cos (gaps j * v / 2) - b i j * sin (gaps j * v / 2)) := by
  have hE : ∀ i, (fun x => a i + ∑ j, (b i j * cos (gaps j * x / 2) + c i j * sin (gaps j * x / 2))) ∈
      Trig (Set.range gaps) := by
    intro i
    have : (fun x => a i + ∑ j, (b i j * cos (gaps j * x / 2) + c i j * sin (gaps j * x / 2))) =
        (fun x => a i + 0 * cos (gaps ⟨0, Nat.pos_of_ne_zero hk⟩ * x / 2) + 0 * sin (gaps ⟨0, Nat.pos_of_ne_zero hk⟩ * x / 2)) +
          ∑ j, fun x => 0 + b i j * cos (gaps j * x / 2) + c i j * sin (gaps j * x / 2) := by
      funext x
      simp [Finset.sum_apply]
    rw [this]
    exact Submodule.add_mem _ (trig_form _ _ _ _ ⟨_, rfl⟩)
      (Submodule.sum_mem _ fun j _ => trig_form _ _ _ _ ⟨j, rfl⟩)
  obtain ⟨d, h1, h2⟩ := C29_multi_gap hk h hE hv hf
  rw [h1]
  congr 1
  funext i
  refine (h2 i).unique ?_
  have h3 : HasDerivAt (fun x => ∑ j, (0 + b i j * cos (gaps j * x / 2) + c i j * sin (gaps j * x / 2)))
      (∑ j, gaps j / 2 * (c i j * cos (gaps j * v / 2) - b i j * sin (gaps j * v / 2))) v :=
    HasDerivAt.fun_sum fun j _ => deriv_form 0 (b i j) (c i j) (gaps j) v
  simp only [zero_add] at h3
  exact h3.const_add (a i)

/-- **C29**, nested: the rules of two parameters give the mixed second derivative. -/
theorem C29_nested {k l : ℕ} (hk : k ≠ 0) (hl : l ≠ 0) {gaps shifts : Fin k → ℝ} {gaps' shifts' : Fin l → ℝ}
    (h : IsUnit (shiftMatrix gaps shifts).det) (h' : IsUnit (shiftMatrix gaps' shifts').det) {E : ℝ → ℝ → ι → ℝ}
    (hE : ∀ i y, (fun x => E x y i) ∈ Trig (Set.range gaps)) (hE' : ∀ i x, (fun y => E x y i) ∈ Trig (Set.range gaps'))
    {f : ExpFn ι} {p : Params} {a b : String} (hab : a ≠ b) {v w : ℝ} (hv : PyDict.get? p a = some v)
    (hw : PyDict.get? p b = some w) (hf : ∀ x y, f (PyDict.set (PyDict.set p a x) b y) = .ok (E x y)) :
    ∃ d, multiGapPsr gaps shifts (fun q => multiGapPsr gaps' shifts' f q b) p a = .ok d ∧
      ∃ D : ℝ → ι → ℝ, (∀ i x, HasDerivAt (fun y => E x y i) (D x i) w) ∧ ∀ i, HasDerivAt (fun x => D x i) (d i) v :=
  (multiGap_rule hk h).exact_mixed (multiGap_rule hl h') hab hv hw hf hE hE'

/-- **C29**, second order in the same parameter. -/
theorem C29_second_order {k : ℕ} (hk : k ≠ 0) {gaps shifts : Fin k → ℝ} (h : IsUnit (shiftMatrix gaps shifts).det)
    {E : ℝ → ι → ℝ} (hE : ∀ i, (fun x => E x i) ∈ Trig (Set.range gaps)) {f : ExpFn ι} {p : Params} {name : String}
    {v : ℝ} (hv : PyDict.get? p name = some v) (hf : ∀ x, f (PyDict.set p name x) = .ok (E x)) :
    ∃ d, multiGapPsr gaps shifts (fun q => multiGapPsr gaps shifts f q name) p name = .ok d ∧
      ∃ E' : ℝ → ι → ℝ, (∀ i x, HasDerivAt (fun x => E x i) (E' x i) x) ∧ ∀ i, HasDerivAt (fun x => E' x i) (d i) v :=
  (multiGap_rule hk h).exact_second hv hf hE

/-! ### `general_psr` -/

theorem rint_int (z : ℤ) : rint (z : ℝ) = z := by
  unfold rint
  rw [if_pos (by simp)]
  simp

/-- The difference is a multiple of 0.0001. -/
def OnGrid (d : ℝ) : Prop := ∃ z : ℤ, d * 10 ^ 4 = z

theorem round4_grid {d : ℝ} (h : OnGrid d) : round4 d = d := by
  obtain ⟨z, hz⟩ := h
  rw [round4, hz, rint_int, ← hz]
  field_simp

theorem mem_differences {l : List ℝ} {d : ℝ} (h : d ∈ differences l) : ∃ a ∈ l, ∃ b ∈ l, d = a - b := by
  induction l with
  | nil => simp [differences] at h
  | cons x l ih =>
    rw [differences, List.mem_append, List.mem_map] at h
    rcases h with ⟨b, hb, rfl⟩ | h
    · exact ⟨x, by simp, b, by simp [hb], rfl⟩
    · obtain ⟨a, ha, b, hb, e⟩ := ih h
      exact ⟨a, by simp [ha], b, by simp [hb], e⟩

theorem differences_mem {l : List ℝ} {a b : ℝ} (ha : a ∈ l) (hb : b ∈ l) (hab : a ≠ b) :
    a - b ∈ differences l ∨ b - a ∈ differences l := by
  induction l with
  | nil => simp at ha
  | cons x l ih =>
    rw [differences]
    simp only [List.mem_append, List.mem_map]
    rcases List.mem_cons.1 ha with rfl | ha'
    · rcases List.mem_cons.1 hb with rfl | hb'
      · exact absurd rfl hab
      · exact .inl (.inl ⟨b, hb', rfl⟩)
    · rcases List.mem_cons.1 hb with rfl | hb'
      · exact .inr (.inl ⟨a, ha', rfl⟩)
      · rcases ih ha' hb' with h | h
        · exact .inl (.inr h)
        · exact .inr (.inr h)

theorem mem_spectralGaps {l : List ℝ} {g : ℝ} :
    g ∈ spectralGaps l ↔ 0 < g ∧ ∃ d ∈ differences l, g = |round4 d| := by
  simp only [spectralGaps, List.mem_filter, Finset.mem_sort, List.mem_toFinset, List.mem_map, decide_eq_true_eq]
  constructor
  · rintro ⟨⟨d, h1, h2⟩, h3⟩
    exact ⟨h3, d, h1, h2.symm⟩
  · rintro ⟨h3, d, h1, h2⟩
    exact ⟨⟨d, h1, h2.symm⟩, h3⟩

/-- On the grid the gaps are the distances of different eigenvalues. -/
theorem gaps_complete {l : List ℝ} (hl : ∀ a ∈ l, ∀ b ∈ l, OnGrid (a - b)) {a b : ℝ} (ha : a ∈ l) (hb : b ∈ l)
    (hab : a ≠ b) : |a - b| ∈ spectralGaps l := by
  rw [mem_spectralGaps]
  refine ⟨abs_pos.2 (sub_ne_zero.2 hab), ?_⟩
  rcases differences_mem ha hb hab with h | h
  · exact ⟨_, h, by rw [round4_grid (hl a ha b hb)]⟩
  · exact ⟨_, h, by rw [round4_grid (hl b hb a ha), abs_sub_comm]⟩

/-- The linear system of the rule is solvable: one gap with a non-zero sine, or an invertible matrix. -/
def Solvable (gaps : List ℝ) (prefac : ℝ) : Prop :=
  if gaps.length = 1 then sin (gaps.headD 0 * (prefac * (π / 2)) / 2) ≠ 0
  else gaps ≠ [] ∧ IsUnit (shiftMatrix (fun i => gaps[i]) (manualShifts prefac gaps.length)).det

theorem general_rule {optimal : (gaps : List ℝ) → Fin gaps.length → ℝ} {spectrum : List ℝ} {o : Options} {c : ℝ}
    (hn : o.nEqs = none) (hc : o.shiftPrefac = some c) (hs : Solvable (spectralGaps spectrum) c) :
    Rule {g | g ∈ spectralGaps spectrum} (generalPsr (ι := ι) optimal spectrum o) := by
  by_cases h1 : (spectralGaps spectrum).length = 1
  · rw [Solvable, if_pos h1] at hs
    obtain ⟨g, hg⟩ := List.length_eq_one_iff.1 h1
    have e : generalPsr (ι := ι) optimal spectrum o = singleGapPsr g (c * (π / 2)) := by
      funext f p name
      simp only [generalPsr, hn, hc, ok_bind, hg, List.headD_cons]
      rw [if_pos (show [g].length = 1 from rfl)]
    have e' : {g | g ∈ spectralGaps spectrum} = {g} := by
      ext x
      simp [hg]
    rw [e, e']
    rw [hg] at hs
    exact singleGap_rule hs
  · rw [Solvable, if_neg h1] at hs
    have e : generalPsr (ι := ι) optimal spectrum o = multiGapPsr (fun i => (spectralGaps spectrum)[i])
        (manualShifts c (spectralGaps spectrum).length) := by
      funext f p name
      simp only [generalPsr, hn, hc, ok_bind, h1, if_false]
    have e' : {g | g ∈ spectralGaps spectrum} = Set.range fun i : Fin (spectralGaps spectrum).length => (spectralGaps spectrum)[i] := by
      ext x
      simp only [Set.mem_setOf_eq, Set.mem_range]
      rw [List.mem_iff_get]
      rfl
    rw [e, e']
    exact multiGap_rule (fun h => hs.1 (List.length_eq_zero_iff.1 h)) hs.2

/-- **C29** `general_psr`: for a spectrum whose differences are multiples of 0.0001, and shifts for which the system is
solvable, the rule returns the derivative of all functions whose frequencies are half the distances of eigenvalues. -/
theorem C29_general {optimal : (gaps : List ℝ) → Fin gaps.length → ℝ} {spectrum : List ℝ}
    (hl : ∀ a ∈ spectrum, ∀ b ∈ spectrum, OnGrid (a - b)) {o : Options} {c : ℝ} (hn : o.nEqs = none)
    (hc : o.shiftPrefac = some c) (hs : Solvable (spectralGaps spectrum) c) {E : ℝ → ι → ℝ}
    (hE : ∀ i, (fun x => E x i) ∈ Trig {g | ∃ a ∈ spectrum, ∃ b ∈ spectrum, a ≠ b ∧ g = |a - b|}) {f : ExpFn ι}
    {p : Params} {name : String} {v : ℝ} (hv : PyDict.get? p name = some v)
    (hf : ∀ x, f (PyDict.set p name x) = .ok (E x)) :
    ∃ d, generalPsr optimal spectrum o f p name = .ok d ∧ ∀ i, HasDerivAt (fun x => E x i) (d i) v := by
  refine (general_rule hn hc hs).exact hv hf fun i => Trig.mono ?_ (hE i)
  rintro g ⟨a, ha, b, hb, hab, rfl⟩
  exact gaps_complete hl ha hb hab

/-- Gaps below 0.00005 are rounded to zero; if there is no other, differentiation fails. -/
theorem C29_counterexample_small_gap (optimal : (gaps : List ℝ) → Fin gaps.length → ℝ) (f : ExpFn ι) (p : Params)
    (name : String) (v : ℝ) :
    generalPsr optimal [0, 0.00001] {} f p name = .error .unboundLocalError := by
  have h : spectralGaps [0, 0.00001] = [] := by
    rw [List.eq_nil_iff_forall_not_mem]
    intro g hg
    obtain ⟨h0, d, hd, rfl⟩ := mem_spectralGaps.1 hg
    simp only [differences, List.map_cons, List.map_nil, List.append_nil, List.mem_singleton] at hd
    subst hd
    have : round4 (0 - 0.00001) = 0 := by
      have e : rint ((0 - 0.00001) * 10 ^ 4) = 0 := by
        unfold rint
        have hfl : ⌊((0 - 0.00001) * 10 ^ 4 : ℝ)⌋ = -1 := by
          rw [Int.floor_eq_iff]
          norm_num
        have hfr : Int.fract ((0 - 0.00001) * 10 ^ 4 : ℝ) = 0.9 := by
          rw [Int.fract, hfl]
          norm_num
        rw [hfl, hfr]
        norm_num
      rw [round4, e]
      simp
    rw [this] at h0
    simp at h0
  simp only [generalPsr, ok_bind, h]
  rfl

/-- Rounding of the gap makes the rule inexact: for the spectrum [0, 0.00006] the derivative of sin(0.00006 x / 2) at 0 is
0.00003, which is not what the rule returns. -/
theorem C29_counterexample_rounding (optimal : (gaps : List ℝ) → Fin gaps.length → ℝ) {f : ExpFn Unit}
    (hf : ∀ x, f [("x", x)] = .ok fun _ => sin (0.00006 * x / 2)) {d : Unit → ℝ}
    (h : generalPsr optimal [0, 0.00006] {} f [("x", 0)] "x" = .ok d) :
    d () ≠ 0.00003 := by
  have hr : round4 (0 - 0.00006) = -0.0001 := by
    have e : rint ((0 - 0.00006) * 10 ^ 4) = -1 := by
      unfold rint
      have hfl : ⌊((0 - 0.00006) * 10 ^ 4 : ℝ)⌋ = -1 := by
        rw [Int.floor_eq_iff]
        norm_num
      have hfr : Int.fract ((0 - 0.00006) * 10 ^ 4 : ℝ) = 0.4 := by
        rw [Int.fract, hfl]
        norm_num
      rw [hfl, hfr]
      norm_num
    rw [round4, e]
    norm_num
  have hg : spectralGaps [0, 0.00006] = [0.0001] := by
    have : (((differences [0, 0.00006]).map (fun d => |round4 d|)).toFinset) = {0.0001} := by
      simp only [differences, List.map_cons, List.map_nil, List.append_nil, hr]
      norm_num
    unfold spectralGaps
    classical
    rw [show (((differences [0, 0.00006]).map (fun d => |round4 d|)).toFinset) = {0.0001} by
      simp only [differences, List.map_cons, List.map_nil, List.append_nil, hr]; norm_num]
    rw [Finset.sort_singleton]
    norm_num
  simp only [generalPsr, ok_bind, hg, List.length_singleton, if_true, List.headD_cons] at h
  rw [singleGapPsr, difference_ok (v := 0) (E := fun x _ => sin (0.00006 * x / 2)) rfl
    (fun x => by simpa [PyDict.set] using hf x), ok_bind] at h
  have := pure_ok h
  subst this
  set y : ℝ := 0.0001 * (0.5 * (π / 2)) / 2 with hy
  have e1 : 0.00006 * (0 + 0.5 * (π / 2)) / 2 = 0.6 * y := by rw [hy]; ring
  have e2 : 0.00006 * (0 - 0.5 * (π / 2)) / 2 = -(0.6 * y) := by rw [hy]; ring
  have hpi := pi_pos
  have hpi4 := pi_le_four
  have y0 : 0 < y := by rw [hy]; positivity
  have y1 : y ≤ π := by rw [hy]; nlinarith
  have hsin : 0 < sin y := sin_pos_of_pos_of_lt_pi y0 (by rw [hy]; nlinarith)
  have hc := strictConcaveOn_sin_Icc.2 (show (0 : ℝ) ∈ Set.Icc 0 π from ⟨le_rfl, hpi.le⟩)
    (show y ∈ Set.Icc 0 π from ⟨y0.le, y1⟩) y0.ne (show (0 : ℝ) < 0.4 by norm_num) (show (0 : ℝ) < 0.6 by norm_num)
    (by norm_num)
  simp only [smul_eq_mul, mul_zero, sin_zero, zero_add] at hc
  simp only [e1, e2, sin_neg]
  intro h3
  have h4 : 0.0001 * (sin (0.6 * y) - -sin (0.6 * y)) = 0.00003 * (4 * sin y) := by
    rw [div_eq_iff (by positivity)] at h3
    exact h3
  nlinarith

end Qadence.PSR
