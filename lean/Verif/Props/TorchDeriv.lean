import Verif.Model.TorchDeriv
import Mathlib.Analysis.Calculus.Deriv.Mul
import Mathlib.Tactic

/-!
# C90: derivatives of models are the partial derivatives at every row
-/

namespace Qadence.TorchDeriv

/-- The partial derivative of a function of one row. -/
noncomputable def partialDeriv {k : ℕ} (i : Fin k) (g : (Fin k → ℝ) → ℝ) (z : Fin k → ℝ) : ℝ :=
  deriv (fun t => g (Function.update z i t)) (z i)

/-- Iterated partial derivatives, the first index first. -/
noncomputable def partials {k : ℕ} : List (Fin k) → ((Fin k → ℝ) → ℝ) → (Fin k → ℝ) → ℝ
  | [], g => g
  | i :: is, g => partials is (partialDeriv i g)

theorem sum_row {B k : ℕ} (g : (Fin k → ℝ) → ℝ) (x : Input B k) (b : Fin B) (i : Fin k) (t : ℝ) :
    ∑ c, g (setEntry x b i t c) = g (Function.update (x b) i t) + ∑ c ∈ Finset.univ.erase b, g (x c) := by
  rw [← Finset.add_sum_erase _ _ (Finset.mem_univ b)]
  congr 1
  · rw [setEntry, Function.update_self]
  · refine Finset.sum_congr rfl fun c hc => ?_
    rw [setEntry, Function.update_of_ne (Finset.ne_of_mem_erase hc)]

theorem autograd_row {B k : ℕ} (g : (Fin k → ℝ) → ℝ) (x : Input B k) (b : Fin B) (i : Fin k) :
    autograd (fun x (c : Fin B) => g (x c)) x b i = partialDeriv i g (x b) := by
  unfold autograd partialDeriv
  simp only [sum_row]
  rw [deriv_add_const]

theorem loop_row {B k : ℕ} (is : List (Fin k)) (g : (Fin k → ℝ) → ℝ) :
    loop (fun (x : Input B k) c => g (x c)) is = fun x b => partials is g (x b) := by
  induction is generalizing g with
  | nil => rfl
  | cons i is ih =>
    unfold loop partials
    simp only [autograd_row]
    exact ih _

/-- For a model which treats the rows of the batch separately, the result at every row consists of the iterated partial
derivatives of the sum of its outputs at this row. -/
theorem C90_derivative_sum {B k o : ℕ} (g : Fin o → (Fin k → ℝ) → ℝ) (i : Fin k) (is : List (Fin k)) (x : Input B k)
    (b : Fin B) :
    torchDerivative (fun x b j => g j (x b)) i is x b = partials (i :: is) (fun z => ∑ j, g j z) (x b) := by
  have h : ∀ (x : Input B k) (b : Fin B), autograd (fun x (j : Fin B × Fin o) => g j.2 (x j.1)) x b i =
      partialDeriv i (fun z => ∑ j, g j z) (x b) := by
    intro x b
    rw [← autograd_row]
    unfold autograd
    simp only [Fintype.sum_prod_type]
  unfold torchDerivative
  simp only [h]
  rw [loop_row]
  rfl

/-- For a model with one output these are its partial derivatives; other rows have no influence. -/
theorem C90_derivative {B k : ℕ} (g : (Fin k → ℝ) → ℝ) (i : Fin k) (is : List (Fin k)) (x : Input B k) (b : Fin B) :
    torchDerivative (o := 1) (fun x b _ => g (x b)) i is x b = partials (i :: is) g (x b) := by
  rw [C90_derivative_sum (fun _ => g)]
  congr 1
  funext z
  simp

/-- Equal rows have equal derivatives, in batches of any sizes. -/
theorem C90_batch_independent {B B' k : ℕ} (g : (Fin k → ℝ) → ℝ) (i : Fin k) (is : List (Fin k)) (x : Input B k)
    (x' : Input B' k) (b : Fin B) (b' : Fin B') (h : x b = x' b') :
    torchDerivative (o := 1) (fun x b _ => g (x b)) i is x b = torchDerivative (o := 1) (fun x b _ => g (x b)) i is x' b' := by
  rw [C90_derivative, C90_derivative, h]

/-- `derivative` returns the partial derivatives of a model with one output at every row … -/
theorem C90_public {B k : ℕ} (g : (Fin k → ℝ) → ℝ) (i : Fin k) (is : List (Fin k)) (x : Input B k) :
    derivative (o := 1) (fun x b _ => g (x b)) i is x = .ok fun b => partials (i :: is) g (x b) := by
  unfold derivative
  rw [if_pos rfl]
  congr 1
  funext b
  exact C90_derivative g i is x b

/-- … and refuses other models. -/
theorem C90_outputs_refused {B k o : ℕ} (ho : o ≠ 1) (ufa : Input B k → Fin B → Fin o → ℝ) (i : Fin k) (is : List (Fin k))
    (x : Input B k) : derivative ufa i is x = .error .assertionError := by
  unfold derivative
  rw [if_neg ho]

/-- This is needed: without the assertion, two opposite outputs would have derivative zero. -/
theorem C90_assertion_needed {B k : ℕ} (g : (Fin k → ℝ) → ℝ) (i : Fin k) (x : Input B k) (b : Fin B) :
    torchDerivative (o := 2) (fun x b j => if j = 0 then g (x b) else - g (x b)) i [] x b = 0 := by
  have h := C90_derivative_sum (B := B) (fun (j : Fin 2) z => if j = 0 then g z else - g z) i [] x b
  rw [h]
  simp [partials, partialDeriv]

/-- A model which mixes the rows gets the derivative of the sum over the batch: if the output for every row is the sum of input
`i` over all `B` rows, with derivative one, the result is `B`. -/
theorem C90_counterexample_mixed {B k : ℕ} (i : Fin k) (x : Input B k) (b : Fin B) :
    torchDerivative (o := 1) (fun x _ _ => ∑ c, x c i) i [] x b = B := by
  unfold torchDerivative loop autograd
  have hs : ∀ t, ∑ c, setEntry x b i t c i = t + ∑ c ∈ Finset.univ.erase b, x c i := by
    intro t
    rw [sum_row (fun z => z i)]
    simp
  simp only [hs, Finset.sum_const, nsmul_eq_mul]
  rw [deriv_const_mul_field, deriv_add_const, deriv_id'']
  simp

/-- The derivative of the first input times the second. -/
theorem C90_product {B : ℕ} (x : Input B 2) (b : Fin B) :
    torchDerivative (o := 1) (fun x b _ => x b 0 * x b 1) 0 [] x b = x b 1 ∧
      torchDerivative (o := 1) (fun x b _ => x b 0 * x b 1) 0 [1] x b = 1 := by
  have h0 : partialDeriv (0 : Fin 2) (fun z => z 0 * z 1) = fun z => z 1 := by
    funext z
    unfold partialDeriv
    simp
  constructor
  · rw [C90_derivative (fun z => z 0 * z 1), partials, partials, h0]
  · rw [C90_derivative (fun z => z 0 * z 1), partials, partials, partials, h0]
    unfold partialDeriv
    simp

example : torchDerivative (o := 1) (fun (x : Input 1 2) b _ => x b 0 * x b 1) 0 [] (fun _ => ![3, 5]) 0 = 5 := by
  rw [(C90_product _ 0).1]
  simp

end Qadence.TorchDeriv
