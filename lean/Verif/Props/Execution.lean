import Verif.Model.Execution
import Verif.Props.Support

/-!
# C89: circuits, registers with blocks, and blocks are executed alike
-/

namespace Qadence.Execution

open Qadence Spec Block

theorem new_one {L : Type} (x : Ctx L) (n : ℕ) (b : Block L) (m : ℕ) (h : nQubitsBlock x b = .ok m) (hm : m ≤ n) :
    Circuit.new x.supp x.nq x.ord n [b] = .ok ⟨n, b⟩ := by
  unfold nQubitsBlock at h
  unfold Circuit.new Circuit.rootBlock
  dsimp only
  split
  · rfl
  · rw [h, ok_bind, if_neg (by omega)]
    rfl

/-- A block alone, with its number of qubits, and with a register of that size give the result of the circuit of the block on
as many qubits. -/
theorem C89_forms_agree {L T : Type} (x : Ctx L) (exec : Circuit L → Except PyErr T) (b : Block L) (n : ℕ)
    (h : nQubitsBlock x b = .ok n) :
    dispatch x exec (.block b) = exec ⟨n, b⟩ ∧ dispatch x exec (.int n b) = exec ⟨n, b⟩ ∧
      dispatch x exec (.register n b) = exec ⟨n, b⟩ ∧ dispatch x exec (.circuit ⟨n, b⟩) = exec ⟨n, b⟩ := by
  have hr : onRegister x exec n b = exec ⟨n, b⟩ := by
    unfold onRegister
    rw [new_one x n b n h le_rfl, ok_bind]
  refine ⟨?_, hr, hr, rfl⟩
  unfold dispatch
  dsimp only
  rw [h, ok_bind, hr]

/-- A larger register is used as it is … -/
theorem C89_larger_register {L T : Type} (x : Ctx L) (exec : Circuit L → Except PyErr T) (b : Block L) (m n : ℕ)
    (h : nQubitsBlock x b = .ok m) (hm : m ≤ n) :
    dispatch x exec (.register n b) = exec ⟨n, b⟩ ∧ dispatch x exec (.int n b) = exec ⟨n, b⟩ := by
  have hr : onRegister x exec n b = exec ⟨n, b⟩ := by
    unfold onRegister
    rw [new_one x n b m h hm, ok_bind]
  exact ⟨hr, hr⟩

/-- … and a smaller one refused. -/
theorem C89_smaller_register {L T : Type} (x : Ctx L) (exec : Circuit L → Except PyErr T) (b : Block L) (m n : ℕ)
    (h : nQubitsBlock x b = .ok m) (hm : n < m) (hl : b.len ≠ 0) :
    dispatch x exec (.register n b) = .error .valueError ∧ dispatch x exec (.int n b) = .error .valueError := by
  have hr : onRegister x exec n b = .error .valueError := by
    unfold nQubitsBlock at h
    unfold onRegister Circuit.new Circuit.rootBlock
    dsimp only
    rw [if_neg hl, h, ok_bind, if_pos hm]
    rfl
  exact ⟨hr, hr⟩

/-- Blocks with global support and other arguments are refused, whatever the backend does. -/
theorem C89_refused {L T : Type} (x : Ctx L) (exec : Circuit L → Except PyErr T) :
    dispatch x exec .globalBlock = .error .valueError ∧ dispatch x exec .other = .error .valueError := ⟨rfl, rfl⟩

/-- A composite block always has a number of qubits; alone it is run on the smallest register containing its qubits. -/
theorem C89_composite_fits {L T : Type} (x : Ctx L) (ho : SetOrder x.ord) (exec : Circuit L → Except PyErr T) (k : CKind)
    (bs : List (Block L)) (t : Option String) :
    ∃ n, dispatch x exec (.block (.comp k bs t)) = exec ⟨n, .comp k bs t⟩ ∧
      ∀ m, n ≤ m ↔ ∀ q ∈ qubits x.supp (.comp k bs t), q < m := by
  obtain ⟨n, h1, h2⟩ := C18_composite_size x.supp x.nq ho k bs t
  exact ⟨n, (C89_forms_agree x exec _ n h1).1, h2⟩

/-- The gates of qadence. -/
def gates (ord : List ℕ → List ℕ) : Ctx Gate := { supp := Gate.supp, nq := Gate.nQubits, ord := ord }

/-- The circuit made for a block contains its qubits, unless the block is a single gate with an unsound size. -/
theorem C89_block_fits {T : Type} (ord : List ℕ → List ℕ) (ho : SetOrder ord) (exec : Circuit Gate → Except PyErr T)
    (b : Block Gate) (hb : b.SizeSound) (n : ℕ) (h : nQubitsBlock (gates ord) b = .ok n) :
    dispatch (gates ord) exec (.block b) = exec ⟨n, b⟩ ∧ ∀ q ∈ qubits Gate.supp b, q < n :=
  ⟨(C89_forms_agree _ exec b n h).1, block_nQubits_sound ho b hb n h⟩

/-- `run(CRX(1, 2, "x"))` makes a circuit of two qubits, which does not contain qubit 2. -/
theorem C89_counterexample_control {T : Type} (ord : List ℕ → List ℕ) (exec : Circuit Gate → Except PyErr T) :
    dispatch (gates ord) exec (.block (.leaf (Gate.crx 1 2 (.var "x")) none)) =
        exec ⟨2, .leaf (Gate.crx 1 2 (.var "x")) none⟩ ∧
      2 ∈ qubits Gate.supp (.leaf (Gate.crx 1 2 (.var "x")) none) := by
  refine ⟨(C89_forms_agree (gates ord) exec _ 2 rfl).1, ?_⟩
  simp [qubits_leaf, Gate.crx, Gate.supp]

/-- `run` of a list never returns: the results cannot be added to a tuple. -/
theorem C89_counterexample_list {L T : Type} (x : Ctx L) (exec : Circuit L → Except PyErr T) (join : List T → T)
    (cs : List (Arg L)) : ∃ e, runList x exec join cs = .error e := by
  unfold runList
  cases cs with
  | nil => exact ⟨_, rfl⟩
  | cons c cs =>
    unfold runLoop
    dsimp only
    cases h : dispatch x exec c with
    | error e => exact ⟨e, rfl⟩
    | ok r => exact ⟨.typeError, rfl⟩

/-- If the first circuit can be run, the list raises `TypeError`; the others are not run. -/
theorem C89_list_error {L T : Type} (x : Ctx L) (exec : Circuit L → Except PyErr T) (join : List T → T) (c : Arg L)
    (cs : List (Arg L)) (r : T) (h : dispatch x exec c = .ok r) : runList x exec join (c :: cs) = .error .typeError := by
  unfold runList runLoop
  dsimp only
  rw [h]
  rfl

/-- An error of the first circuit is the error of the list. -/
theorem C89_list_first_error {L T : Type} (x : Ctx L) (exec : Circuit L → Except PyErr T) (join : List T → T) (c : Arg L)
    (cs : List (Arg L)) (e : PyErr) (h : dispatch x exec c = .error e) : runList x exec join (c :: cs) = .error e := by
  unfold runList runLoop
  dsimp only
  rw [h]
  rfl

/-- An empty list is a `RuntimeError` of `concat`. -/
theorem C89_list_empty {L T : Type} (x : Ctx L) (exec : Circuit L → Except PyErr T) (join : List T → T) :
    runList x exec join [] = .error .runtimeError := rfl

/-- `run` and `sample` use expression parameters exactly on PyQTorch, whatever mode is given. -/
theorem C89_parameters_run (f : Fn) (hf : f ≠ .expectation) (pyqtorch : Bool) (given : Option Diff) :
    useGateParams pyqtorch (diffMode f pyqtorch given) = !pyqtorch := by
  cases f <;> cases pyqtorch <;> first | rfl | exact absurd rfl hf

/-- `expectation` uses gate parameters unless automatic differentiation on PyQTorch is asked for; in particular by default, so
that the truncation of looped expectation values (`C88_counterexample_loop_truncates`) concerns it. -/
theorem C89_parameters_expectation (pyqtorch : Bool) (given : Option Diff) :
    useGateParams pyqtorch (diffMode .expectation pyqtorch given) = false ↔ pyqtorch = true ∧ given = some .ad := by
  unfold useGateParams diffMode
  cases pyqtorch <;> simp

/-- Expectation values can be differentiated exactly if a mode is given, states never. -/
theorem C89_gradients (given : Option Diff) :
    (withGrad .expectation given = true ↔ ∃ d, given = some d) ∧ withGrad .run given = false := by
  refine ⟨?_, rfl⟩
  unfold withGrad
  exact Option.isSome_iff_exists

section Examples

def exX (q : ℕ) : Block Gate := .leaf (.fixed .X q) none
def exExec (c : Circuit Gate) : Except PyErr ℕ := .ok c.nReg

example : dispatch (gates id) exExec (.block (exX 3)) = .ok 4 := by decide +kernel
example : dispatch (gates id) exExec (.int 7 (exX 3)) = .ok 7 := by decide +kernel
example : dispatch (gates id) exExec (.register 2 (exX 3)) = .error .valueError := by decide +kernel
example : runList (gates id) exExec List.sum [.block (exX 0), .block (exX 1)] = .error .typeError := by decide +kernel
example : runList (gates id) exExec List.sum [.globalBlock] = .error .valueError := by decide +kernel

end Examples

end Qadence.Execution
