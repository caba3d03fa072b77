import Verif.Props.Equality

/-!
# Examples and counterexamples for C20
-/

namespace Qadence

open Spec Block Decompose

variable {simp : Expr → Expr → Bool} {ord : List ℕ → List ℕ}

/-- A gate on a qubit. -/
def fx (g : FixedGate) (q : ℕ) : Block Prim := .leaf (.gate (.fixed g q) none) none

/-- A rotation about X. -/
def rx (q : ℕ) (θ : Expr) : Block Prim := .leaf (.gate (.rot .RX q θ) none) none

theorem leaf_pyEq (l l' : Prim) (t t' : Option String) : Block.pyEq (primEq simp ord) (.leaf l t) (.leaf l' t') = primEq simp ord l l' := by
  unfold Block.pyEq; rfl

theorem fixed_primEq (g g' : FixedGate) (q q' : ℕ) (ν ν' : Option (NoiseHandler Rat)) (h : ∀ s, g ≠ .N s) :
    primEq simp ord (.gate (.fixed g q) ν) (.gate (.fixed g' q') ν') = .ok (decide (g = g' ∧ q = q')) := by
  rw [primEq, gateEq_eq]
  unfold gateDunderEq
  cases g <;> cases g' <;> first | exact absurd rfl (h _) | (by_cases hq : q = q' <;> simp [Gate.sameType, Gate.subType, Gate.supp, hq])

theorem fx_pyEq (g g' : FixedGate) (q q' : ℕ) (h : ∀ s, g ≠ .N s) :
    Block.pyEq (primEq simp ord) (fx g q) (fx g' q') = .ok (decide (g = g' ∧ q = q')) := by
  rw [fx, fx, leaf_pyEq, fixed_primEq _ _ _ _ _ _ h]

section
variable {leq : Prim → Prim → Except PyErr Bool}

theorem pyEq_chain' (as bs : List (Block Prim)) (t t' : Option String) : Block.pyEq leq (.comp .chain as t) (.comp .chain bs t') =
    if as.length = bs.length ∧ t = t' then allEq leq as bs else .ok false := by rw [Block.pyEq]
theorem pyEq_kron' (as bs : List (Block Prim)) (t t' : Option String) : Block.pyEq leq (.comp .kron as t) (.comp .kron bs t') =
    if as.length = bs.length ∧ t = t' then allIn leq as bs else .ok false := by rw [Block.pyEq]
theorem pyEq_add' (as bs : List (Block Prim)) (t t' : Option String) : Block.pyEq leq (.comp .add as t) (.comp .add bs t') =
    if as.length = bs.length ∧ t = t' then allIn leq as bs else .ok false := by rw [Block.pyEq]
theorem pyEq_comp_leaf (k : CKind) (as : List (Block Prim)) (t t' : Option String) (l : Prim) :
    Block.pyEq leq (.comp k as t) (.leaf l t') = .ok false := by cases k <;> rw [Block.pyEq] <;> simp
theorem allIn_nil' (bs : List (Block Prim)) : allIn leq [] bs = .ok true := by rw [allIn]
theorem allIn_cons' (a : Block Prim) (as bs : List (Block Prim)) : allIn leq (a :: as) bs = (do
    let r ← isIn leq bs a
    let rs ← allIn leq as bs
    return r && rs) := by rw [allIn]
theorem allEq_nil' : allEq leq [] [] = .ok true := by rw [allEq]; simp
theorem allEq_cons' (a b : Block Prim) (as bs : List (Block Prim)) : allEq leq (a :: as) (b :: bs) = (do
    let r ← Block.pyEq leq a b
    let rs ← allEq leq as bs
    return r && rs) := by rw [allEq]
theorem isIn_nil' (x : Block Prim) : isIn leq [] x = .ok false := by rw [isIn]
theorem isIn_cons' (b : Block Prim) (bs : List (Block Prim)) (x : Block Prim) : isIn leq (b :: bs) x = (do
    if ← inPart leq b x then return true
    else if ← Block.pyEq leq b x then return true
    else isIn leq bs x) := by rw [isIn]
theorem inPart_leaf' (l : Prim) (t : Option String) (x : Block Prim) : inPart leq (.leaf l t) x = .ok false := by rw [inPart]; simp
theorem inPart_comp' (k : CKind) (bs : List (Block Prim)) (t : Option String) (x : Block Prim) :
    inPart leq (.comp k bs t) x = isIn leq bs x := by rw [inPart]
end

theorem pyEq_fx_comp (k : CKind) (as : List (Block Prim)) (t : Option String) (g : FixedGate) (q : ℕ) :
    Block.pyEq (primEq simp ord) (fx g q) (.comp k as t) = .ok false := by rw [fx]; cases k <;> rw [Block.pyEq] <;> simp

theorem inPart_fx (g : FixedGate) (q : ℕ) (x : Block Prim) : inPart (primEq simp ord) (fx g q) x = .ok false := inPart_leaf' _ _ _

theorem pyEq_comp_fx (k : CKind) (as : List (Block Prim)) (t : Option String) (g : FixedGate) (q : ℕ) :
    Block.pyEq (primEq simp ord) (.comp k as t) (fx g q) = .ok false := pyEq_comp_leaf _ _ _ _ _

/-- **C20**: `X(0) + X(0) + Y(0) == X(0) + Y(0) + Y(0)`, also in the other direction. -/
theorem C20_counterexample_multiplicity (ho : SetOrder ord) (ρ : Env) :
    blockEq simp ord (.comp .add [fx .X 0, fx .X 0, fx .Y 0] none) (.comp .add [fx .X 0, fx .Y 0, fx .Y 0] none) = .ok true ∧
    blockEq simp ord (.comp .add [fx .X 0, fx .Y 0, fx .Y 0] none) (.comp .add [fx .X 0, fx .X 0, fx .Y 0] none) = .ok true ∧
    sem (primSem 1 ρ ord ho) ρ (.comp .add [fx .X 0, fx .X 0, fx .Y 0] none) ≠
      sem (primSem 1 ρ ord ho) ρ (.comp .add [fx .X 0, fx .Y 0, fx .Y 0] none) := by
  refine ⟨?_, ?_, ?_⟩
  · simp [blockEq, pyEq_add', allIn_cons', allIn_nil', isIn_cons', isIn_nil', inPart_fx, fx_pyEq, bind, Except.bind, pure, Except.pure]
  · simp [blockEq, pyEq_add', allIn_cons', allIn_nil', isIn_cons', isIn_nil', inPart_fx, fx_pyEq, bind, Except.bind, pure, Except.pure]
  · intro h
    have := congrFun (congrFun h (fun _ => false)) (fun _ => true)
    simp [sem_add, fx, sem_leaf, primSem, primDen, gateDen, embed1, mat1, bit, Matrix.add_apply, ind, Complex.ext_iff] at this

/-- **C20**: `kron(X(0), X(1)) == kron(chain(X(0), X(1)), X(2))`, but not in the other direction. -/
theorem C20_counterexample_deep (ho : SetOrder ord) (ρ : Env) :
    blockEq simp ord (.comp .kron [fx .X 0, fx .X 1] none) (.comp .kron [.comp .chain [fx .X 0, fx .X 1] none, fx .X 2] none) = .ok true ∧
    blockEq simp ord (.comp .kron [.comp .chain [fx .X 0, fx .X 1] none, fx .X 2] none) (.comp .kron [fx .X 0, fx .X 1] none) = .ok false ∧
    sem (primSem 3 ρ ord ho) ρ (.comp .kron [fx .X 0, fx .X 1] none) ≠
      sem (primSem 3 ρ ord ho) ρ (.comp .kron [.comp .chain [fx .X 0, fx .X 1] none, fx .X 2] none) := by
  refine ⟨?_, ?_, ?_⟩
  · simp [blockEq, pyEq_kron', allIn_cons', allIn_nil', isIn_cons', isIn_nil', inPart_fx, inPart_comp', fx_pyEq, pyEq_fx_comp,
      bind, Except.bind, pure, Except.pure]
  · simp [blockEq, pyEq_kron', allIn_cons', allIn_nil', isIn_cons', isIn_nil', inPart_fx, inPart_comp', fx_pyEq, pyEq_fx_comp,
      bind, Except.bind, pure, Except.pure]
  · intro h
    have hsq : ∀ q < 3, (embed1 q (mat1 .X) * embed1 q (mat1 .X) : Oper 3) = 1 := fun q hq => by
      rw [embed1_mul hq, X_sq, embed1_one]
    have h1 : (1 * embed1 1 (mat1 .X) * embed1 0 (mat1 .X) : Oper 3) =
        1 * embed1 2 (mat1 .X) * (1 * embed1 1 (mat1 .X) * embed1 0 (mat1 .X)) := by
      rw [sem_kron, sem_kron, List.map_cons, List.map_cons, List.map_cons, sem_chain] at h
      exact h
    have h2 := congrArg (fun M : Oper 3 => M * embed1 0 (mat1 .X) * embed1 1 (mat1 .X)) h1
    simp only [one_mul, mul_assoc] at h2
    rw [← mul_assoc (embed1 0 (mat1 .X) : Oper 3), hsq 0 (by norm_num), one_mul, hsq 1 (by norm_num), mul_one] at h2
    have := congrFun (congrFun h2 (fun _ => false)) (fun _ => false)
    simp [embed1, mat1, bit, ind] at this

/-- **C20**: `N(0, state=0) == N(0, state=1)`. -/
theorem C20_counterexample_number (ho : SetOrder ord) (ρ : Env) :
    blockEq simp ord (fx (.N false) 0) (fx (.N true) 0) = .ok true ∧
    sem (primSem 1 ρ ord ho) ρ (fx (.N false) 0) ≠ sem (primSem 1 ρ ord ho) ρ (fx (.N true) 0) := by
  refine ⟨?_, ?_⟩
  · rw [blockEq, fx, fx, leaf_pyEq, primEq, gateEq_eq]
    unfold gateDunderEq
    simp [Gate.sameType, Gate.supp]
  · intro h
    have := congrFun (congrFun h (fun _ => false)) (fun _ => false)
    simp [fx, sem_leaf, primSem, primDen, gateDen, embed1, mat1, bit, ind] at this

/-- **C20**: projectors on the same qubits are equal. -/
theorem C20_counterexample_projector (ho : SetOrder ord) (ρ : Env) :
    blockEq simp ord (.leaf (.gate (.proj [false] [false] [0]) none) none) (.leaf (.gate (.proj [true] [true] [0]) none) none) = .ok true ∧
    sem (primSem 1 ρ ord ho) ρ (.leaf (.gate (.proj [false] [false] [0]) none) none) ≠
      sem (primSem 1 ρ ord ho) ρ (.leaf (.gate (.proj [true] [true] [0]) none) none) := by
  refine ⟨?_, ?_⟩
  · rw [blockEq, leaf_pyEq, primEq, gateEq_eq]
    unfold gateDunderEq
    simp [Gate.sameType, Gate.supp]
  · intro h
    have := congrFun (congrFun h (fun _ => false)) (fun _ => false)
    simp [sem_leaf, primSem, primDen, gateDen, embed, ind, bit] at this

/-- **C20**: matrix blocks on the same qubits are equal. -/
theorem C20_counterexample_matrix (ho : SetOrder ord) (ρ : Env) :
    blockEq simp ord (.leaf (.gate (.matrix [[.num 1 0, .num 0 0], [.num 0 0, .num 1 0]] [0]) none) none)
      (.leaf (.gate (.matrix [[.num 0 0, .num 1 0], [.num 1 0, .num 0 0]] [0]) none) none) = .ok true ∧
    sem (primSem 1 ρ ord ho) ρ (.leaf (.gate (.matrix [[.num 1 0, .num 0 0], [.num 0 0, .num 1 0]] [0]) none) none) ≠
      sem (primSem 1 ρ ord ho) ρ (.leaf (.gate (.matrix [[.num 0 0, .num 1 0], [.num 1 0, .num 0 0]] [0]) none) none) := by
  refine ⟨?_, ?_⟩
  · rw [blockEq, leaf_pyEq, primEq, gateEq_eq]
    unfold gateDunderEq
    simp [Gate.sameType, Gate.supp]
  · intro h
    have := congrFun (congrFun h (fun _ => false)) (fun _ => false)
    simp [sem_leaf, primSem, primDen, gateDen, embed, ind, bit, bitsValue, eval] at this

/-- **C20**: `HamEvo(X(0), π/2) == HamEvo(Z(0), π/2)`: the generators are not compared. -/
theorem C20_counterexample_generator (ho : SetOrder ord) (ρ : Env) :
    blockEq simp ord (.leaf (.hamEvo (.leaf (.fixed .X 0) none) halfPi) none) (.leaf (.hamEvo (.leaf (.fixed .Z 0) none) halfPi) none) = .ok true ∧
    sem (primSem 1 ρ ord ho) ρ (.leaf (.hamEvo (.leaf (.fixed .X 0) none) halfPi) none) ≠
      sem (primSem 1 ρ ord ho) ρ (.leaf (.hamEvo (.leaf (.fixed .Z 0) none) halfPi) none) := by
  refine ⟨?_, ?_⟩
  · rw [blockEq, leaf_pyEq, primEq]
    simp [Block.support, Gate.supp, Expr.equals, expr_pyEq_refl]
  · have hx : (embed1 0 (mat1 .X) * embed1 0 (mat1 .X) : Oper 1) = 1 := by rw [embed1_mul zero_lt_one, X_sq, embed1_one]
    have hz : (embed1 0 (mat1 .Z) * embed1 0 (mat1 .Z) : Oper 1) = 1 := by rw [embed1_mul zero_lt_one, Z_sq, embed1_one]
    intro h
    have h1 : evolution (eval ρ halfPi) (embed1 0 (mat1 .X) : Oper 1) = evolution (eval ρ halfPi) (embed1 0 (mat1 .Z)) := h
    rw [eval_halfPi, evolution_half hx, evolution_half hz] at h1
    have := congrFun (congrFun h1 (fun _ => false)) (fun _ => false)
    simp [embed1, mat1, bit, ind] at this

/-- **C20**: `RX(0, x) == RX(0, 2*x)`, but not in the other direction. -/
theorem C20_counterexample_parameter (ho : SetOrder ord) (hs : SimpSound simp) :
    blockEq simp ord (rx 0 (.var "x")) (rx 0 (.mul (.num 2 0) (.var "x"))) = .ok true ∧
    blockEq simp ord (rx 0 (.mul (.num 2 0) (.var "x"))) (rx 0 (.var "x")) = .ok false ∧
    ∃ ρ : Env, sem (primSem 1 ρ ord ho) ρ (rx 0 (.var "x")) ≠ sem (primSem 1 ρ ord ho) ρ (rx 0 (.mul (.num 2 0) (.var "x"))) := by
  have he : ∀ ρ : Env, eval ρ (.mul (.num 2 0) (.var "x")) = 2 * ρ.var "x" := fun ρ => by
    rw [eval.eq_def]
    show eval ρ (.num 2 0) * ρ.var "x" = _
    rw [eval_rat]
    norm_num
  have hne : ¬ SameValue (.mul (.num 2 0) (.var "x")) (.var "x") := fun h => by
    have := h ⟨fun _ => 1, fun _ _ => 0⟩
    rw [he] at this
    norm_num [eval] at this
  refine ⟨?_, ?_, ⟨fun _ => Real.pi, fun _ _ => 0⟩, ?_⟩
  · rw [blockEq, rx, rx, leaf_pyEq, primEq, gateEq_eq]
    unfold gateDunderEq
    simp [Gate.sameType, Gate.supp, Expr.equals, Expr.pyEq, Expr.freeSymbols]
  · have hf : simp (.mul (.num 2 0) (.var "x")) (.var "x") = false := by
      rw [← Bool.not_eq_true]
      exact fun h => hne (hs _ _ h)
    rw [blockEq, rx, rx, leaf_pyEq, primEq, gateEq_eq]
    unfold gateDunderEq
    simp [Gate.sameType, Gate.supp, Expr.equals, Expr.pyEq, hf]
  · intro h
    have := congrFun (congrFun h (fun _ => false)) (fun _ => false)
    simp only [rx, sem_leaf, primSem, primDen, gateDen, he] at this
    simp [embed1, matRot, bit, eval] at this

/-- **C20**: a `U` gate cannot be compared with itself. -/
theorem C20_counterexample_u (q : ℕ) (φ θ ω : Expr) :
    blockEq simp ord (.leaf (.gate (.u q φ θ ω) none) none) (.leaf (.gate (.u q φ θ ω) none) none) = .error .attributeError := by
  rw [blockEq, leaf_pyEq, primEq, gateEq_eq]
  unfold gateDunderEq
  simp [Gate.sameType]

/-- **C20**: `CZ(0, 1)` and `MCZ((0,), 1)` denote the same operator, but are unequal in both directions. -/
theorem C20_cz_mcz (ρ : Env) (ho : SetOrder ord) :
    blockEq simp ord (.leaf (.gate (.control .CZ [0] (.fixed .Z 1)) none) none) (.leaf (.gate (.control .MCZ [0] (.fixed .Z 1)) none) none) = .ok false ∧
    blockEq simp ord (.leaf (.gate (.control .MCZ [0] (.fixed .Z 1)) none) none) (.leaf (.gate (.control .CZ [0] (.fixed .Z 1)) none) none) = .ok false ∧
    sem (primSem 2 ρ ord ho) ρ (.leaf (.gate (.control .CZ [0] (.fixed .Z 1)) none) none) =
      sem (primSem 2 ρ ord ho) ρ (.leaf (.gate (.control .MCZ [0] (.fixed .Z 1)) none) none) := by
  refine ⟨?_, ?_, rfl⟩
  · rw [blockEq, leaf_pyEq, primEq, gateEq_eq]; simp [Gate.sameType]
  · rw [blockEq, leaf_pyEq, primEq, gateEq_eq]; simp [Gate.sameType]

/-! ## Examples -/

theorem occurs_leaf {x : Block Prim} {l : Prim} {t : Option String} : Occurs x (.leaf l t) ↔ x = .leaf l t :=
  ⟨fun h => by cases h; rfl, fun h => h ▸ .self⟩

theorem occurs_comp {x : Block Prim} {k : CKind} {bs : List (Block Prim)} {t : Option String} :
    Occurs x (.comp k bs t) ↔ x = .comp k bs t ∨ ∃ b ∈ bs, Occurs x b :=
  ⟨fun h => by
    cases h with
    | self => exact .inl rfl
    | comp _ _ hb h => exact .inr ⟨_, hb, h⟩, fun h => by
    rcases h with rfl | ⟨b, hb, h⟩
    · exact .self
    · exact .comp _ _ hb h⟩

/-- `kron(RX(0, x), Y(1))` and `kron(Y(1), RX(0, x))` can be compared faithfully. -/
theorem demo_faithful : Faithful (.comp .kron [rx 0 (.var "x"), fx .Y 1] none) (.comp .kron [fx .Y 1, rx 0 (.var "x")] none) := by
  have hne : ¬ Same (SamePrim SameValue) Eq (rx 0 (.var "x")) (fx .Y 1) := fun h => by
    cases h with
    | leaf _ _ h => cases h with | gate _ _ h => cases h
  have hne' : ¬ Same (SamePrim SameValue) Eq (fx .Y 1) (rx 0 (.var "x")) := fun h => by
    cases h with
    | leaf _ _ h => cases h with | gate _ _ h => cases h
  have hocc : ∀ x, Occurs x (.comp .kron [rx 0 (.var "x"), fx .Y 1] none) ∨ Occurs x (.comp .kron [fx .Y 1, rx 0 (.var "x")] none) →
      x = .comp .kron [rx 0 (.var "x"), fx .Y 1] none ∨ x = .comp .kron [fx .Y 1, rx 0 (.var "x")] none ∨ x = rx 0 (.var "x") ∨
        x = fx .Y 1 := by
    intro x h
    have hl : ∀ y : Block Prim, y = rx 0 (.var "x") ∨ y = fx .Y 1 → Occurs x y → x = y := by
      rintro y (rfl | rfl) h <;> cases h <;> rfl
    rcases h with h | h
    · rcases occurs_comp.1 h with rfl | ⟨b, hb, h⟩
      · exact .inl rfl
      · have hb' : b = rx 0 (.var "x") ∨ b = fx .Y 1 := by simpa using hb
        rw [hl b hb' h]
        exact .inr (.inr hb')
    · rcases occurs_comp.1 h with rfl | ⟨b, hb, h⟩
      · exact .inr (.inl rfl)
      · have hb' : b = rx 0 (.var "x") ∨ b = fx .Y 1 := by simpa [or_comm] using hb
        rw [hl b hb' h]
        exact .inr (.inr hb')
  have hleaf : ∀ l t, Occurs (.leaf l t) (.comp .kron [rx 0 (.var "x"), fx .Y 1] none) ∨
      Occurs (.leaf l t) (.comp .kron [fx .Y 1, rx 0 (.var "x")] none) →
      l = .gate (.rot .RX 0 (.var "x")) none ∨ l = .gate (.fixed .Y 1) none := by
    intro l t h
    rcases hocc _ h with h | h | h | h
    · cases h
    · cases h
    · cases h; exact .inl rfl
    · cases h; exact .inr rfl
  have hcomp : ∀ k bs t, Occurs (.comp k bs t) (.comp .kron [rx 0 (.var "x"), fx .Y 1] none) ∨
      Occurs (.comp k bs t) (.comp .kron [fx .Y 1, rx 0 (.var "x")] none) →
      bs = [rx 0 (.var "x"), fx .Y 1] ∨ bs = [fx .Y 1, rx 0 (.var "x")] := by
    intro k bs t h
    rcases hocc _ h with h | h | h | h
    · cases h; exact .inl rfl
    · cases h; exact .inr rfl
    · cases h
    · cases h
  have hex : ∀ e, ExprIn e (.comp .kron [rx 0 (.var "x"), fx .Y 1] none) ∨ ExprIn e (.comp .kron [fx .Y 1, rx 0 (.var "x")] none) →
      e = .var "x" := by
    intro e h
    have h' : (∃ l t, (Occurs (.leaf l t) (.comp .kron [rx 0 (.var "x"), fx .Y 1] none) ∨
        Occurs (.leaf l t) (.comp .kron [fx .Y 1, rx 0 (.var "x")] none)) ∧ e ∈ primExprs l) ∨
        ∃ b t, Occurs (.scale b e t) (.comp .kron [rx 0 (.var "x"), fx .Y 1] none) ∨
          Occurs (.scale b e t) (.comp .kron [fx .Y 1, rx 0 (.var "x")] none) := by
      rcases h with (⟨l, t, h, he⟩ | ⟨b, t, h⟩) | (⟨l, t, h, he⟩ | ⟨b, t, h⟩)
      · exact .inl ⟨l, t, .inl h, he⟩
      · exact .inr ⟨b, t, .inl h⟩
      · exact .inl ⟨l, t, .inr h, he⟩
      · exact .inr ⟨b, t, .inr h⟩
    rcases h' with ⟨l, t, h, he⟩ | ⟨b, t, h⟩
    · rcases hleaf l t h with rfl | rfl <;> simpa [primExprs, gateExprs] using he
    · rcases hocc _ h with h | h | h | h <;> cases h
  refine ⟨?_, ?_, ?_, ?_⟩
  · intro l t h
    rcases hleaf l t h with rfl | rfl <;> simp [FullPrim, FullGate]
  · intro e e' h h'
    rw [hex e h, hex e' h']
  · intro k bs t h hk
    rcases hcomp k bs t h with rfl | rfl
    · simpa using hne
    · simpa using hne'
  · intro k as bs t t' h h' hk p hp q hq r hr
    have : q = rx 0 (.var "x") ∨ q = fx .Y 1 := by
      rcases hcomp k bs t' h' with rfl | rfl
      · simpa using hq
      · simpa [or_comm] using hq
    rcases this with rfl | rfl <;> cases hr

/-- The order of the parts of a kron does not matter. -/
example : blockEq simp ord (.comp .kron [rx 0 (.var "x"), fx .Y 1] none) (.comp .kron [fx .Y 1, rx 0 (.var "x")] none) = .ok true := by
  refine C20_same_equal ?_ ?_
  · intro l t h
    exact (demo_faithful.gates l t h).noU
  · exact .kron _ (.cons (same_refl (fun _ => rfl) (fun _ => rfl) _) (.cons (same_refl (fun _ => rfl) (fun _ => rfl) _) .nil))
      (List.Perm.swap _ _ _)

/-- The order of the parts of a chain matters. -/
example : blockEq simp ord (.comp .chain [fx .X 0, fx .Y 0] none) (.comp .chain [fx .Y 0, fx .X 0] none) = .ok false := by
  simp [blockEq, pyEq_chain', allEq_cons', allEq_nil', fx_pyEq, bind, Except.bind, pure, Except.pure]

/-- A simplification which never succeeds is sound. -/
example : SimpSound fun _ _ => false := fun _ _ h => absurd h (by simp)

/-- `C20_equal_partial` and `C20_symmetric_partial` apply. -/
example (ho : SetOrder ord) (hs : SimpSound simp) (ρ : Env) :
    sem (primSem 2 ρ ord ho) ρ (.comp .kron [rx 0 (.var "x"), fx .Y 1] none) =
      sem (primSem 2 ρ ord ho) ρ (.comp .kron [fx .Y 1, rx 0 (.var "x")] none) := by
  refine (C20_equal_partial ho hs demo_faithful ?_ ?_).2 2 ρ
  · rw [wellFormed_kron]
    refine ⟨by simp, ?_, ?_⟩
    · simp [rx, fx, qubits_leaf, Prim.supp, Gate.supp]
    · simp [rx, fx, WellFormed]
  · refine C20_same_equal ?_ ?_
    · intro l t h
      exact (demo_faithful.gates l t h).noU
    · exact .kron _ (.cons (same_refl (fun _ => rfl) (fun _ => rfl) _) (.cons (same_refl (fun _ => rfl) (fun _ => rfl) _) .nil))
        (List.Perm.swap _ _ _)

end Qadence
