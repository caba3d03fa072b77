import Verif.Model.Dagger
import Verif.Proofs.GateSem

/-!
# C14: `dagger` is the adjoint
-/

namespace Qadence

open Spec Matrix

variable {n : ℕ}

namespace Spec

/-- Primitive blocks for which `dagger` is the adjoint: angles are real, a `U` has equal outer angles, projectors
have equal ket and bra, matrices are Hermitian, controls differ from targets. -/
def Adjointable (ρ : Env) : Gate → Prop
  | .fixed _ _ => True
  | .rot _ _ θ => (eval ρ θ).im = 0
  | .u _ φ θ ω => (eval ρ φ).im = 0 ∧ (eval ρ θ).im = 0 ∧ (eval ρ ω).im = 0 ∧ eval ρ φ = eval ρ ω
  | .swap _ _ => True
  | .proj k b _ => k = b
  | .matrix rows _ => ∀ i j, eval ρ ((rows.getD i []).getD j (.num 0 0)) =
      (starRingEnd ℂ) (eval ρ ((rows.getD j []).getD i (.num 0 0)))
  | .control _ cs g => Adjointable ρ g ∧ ∀ c ∈ cs, c ∉ g.supp

/-- The same for primitive blocks; evolutions have a real time and a Hermitian generator. -/
def AdjointablePrim (n : ℕ) (ρ : Env) : Prim → Prop
  | .gate g _ => Adjointable ρ g
  | .hamEvo gen t => (eval ρ t).im = 0 ∧ (sem (gateSem n ρ) ρ gen)ᴴ = sem (gateSem n ρ) ρ gen

mutual
/-- A property of all primitive blocks inside a block. -/
def AllLeaves {L : Type} (P : L → Prop) : Block L → Prop
  | .leaf l _ => P l
  | .scale b _ _ => AllLeaves P b
  | .comp _ bs _ => AllLeavesList P bs
/-- The same for lists. -/
def AllLeavesList {L : Type} (P : L → Prop) : List (Block L) → Prop
  | [] => True
  | b :: bs => AllLeaves P b ∧ AllLeavesList P bs
end

theorem allLeavesList_iff {L : Type} {P : L → Prop} {bs : List (Block L)} :
    AllLeavesList P bs ↔ ∀ b ∈ bs, AllLeaves P b := by
  induction bs with
  | nil => simp [AllLeavesList]
  | cons b bs ih => simp [AllLeavesList, ih]

theorem conj_eq_self_of_im {z : ℂ} (h : z.im = 0) : (starRingEnd ℂ) z = z := Complex.conj_eq_iff_im.2 h

theorem embed1_conjTranspose (q : ℕ) (U : Matrix Bool Bool ℂ) : (embed1 q U : Oper n)ᴴ = embed1 q Uᴴ := by
  ext x y
  simp only [conjTranspose_apply, embed1]
  have : (∀ j : Fin n, q ≠ j → y j = x j) ↔ ∀ j : Fin n, q ≠ j → x j = y j :=
    forall_congr' fun j => imp_congr_right fun _ => eq_comm
  by_cases h : ∀ j : Fin n, q ≠ j → x j = y j
  · rw [if_pos h, if_pos (this.2 h)]
  · rw [if_neg h, if_neg (fun h' => h (this.1 h')), star_zero]

theorem embed_conjTranspose {k : ℕ} (f : Fin k → ℕ) (U : Matrix (Fin k → Bool) (Fin k → Bool) ℂ) :
    (embed f U : Oper n)ᴴ = embed f Uᴴ := by
  ext x y
  simp only [conjTranspose_apply, embed]
  have : (∀ j : Fin n, (∀ i, f i ≠ j) → y j = x j) ↔ ∀ j : Fin n, (∀ i, f i ≠ j) → x j = y j :=
    forall_congr' fun j => imp_congr_right fun _ => eq_comm
  by_cases h : ∀ j : Fin n, (∀ i, f i ≠ j) → x j = y j
  · rw [if_pos h, if_pos (this.2 h)]
  · rw [if_neg h, if_neg (fun h' => h (this.1 h')), star_zero]

theorem mat1_dagger (g : FixedGate) : mat1 g.dagger = (mat1 g)ᴴ := by
  have h2 : (starRingEnd ℂ) (Complex.exp (Complex.I * Real.pi / 4)) = Complex.exp (-(Complex.I * Real.pi / 4)) := by
    rw [← Complex.exp_conj]; congr 1; simp [Complex.conj_ofNat]; ring
  have h3 : (starRingEnd ℂ) (Complex.exp (-(Complex.I * Real.pi / 4))) = Complex.exp (Complex.I * Real.pi / 4) := by
    rw [← h2, Complex.conj_conj]
  cases g <;> ext a b <;> rw [conjTranspose_apply] <;> simp only [FixedGate.dagger, mat1, ind]
  case I => cases a <;> cases b <;> simp
  case X => cases a <;> cases b <;> simp
  case Y => cases a <;> cases b <;> simp
  case Z => cases a <;> cases b <;> simp
  case H => cases a <;> cases b <;> simp
  case S => cases a <;> cases b <;> simp
  case SDagger => cases a <;> cases b <;> simp
  case T => cases a <;> cases b <;> simp [h2]
  case TDagger => cases a <;> cases b <;> simp [h3]
  case Zero => simp
  case N s => cases a <;> cases b <;> cases s <;> simp

theorem matRot_dagger (g : RotGate) {θ : ℂ} (h : θ.im = 0) : matRot (-θ) g = (matRot θ g)ᴴ := by
  have hθ := conj_eq_self_of_im h
  have hc : (starRingEnd ℂ) (Complex.cos (θ / 2)) = Complex.cos (θ / 2) := by
    rw [← Complex.cos_conj]; congr 1; simp [Complex.conj_ofNat, hθ]
  have hs : (starRingEnd ℂ) (Complex.sin (θ / 2)) = Complex.sin (θ / 2) := by
    rw [← Complex.sin_conj]; congr 1; simp [Complex.conj_ofNat, hθ]
  have he : ∀ z : ℂ, (starRingEnd ℂ) z = -z → (starRingEnd ℂ) (Complex.exp z) = Complex.exp (-z) := by
    intro z hz; rw [← Complex.exp_conj, hz]
  have h1 : (starRingEnd ℂ) (Complex.I * θ / 2) = -(Complex.I * θ / 2) := by
    simp [Complex.conj_ofNat, hθ]; ring
  have h2 : (starRingEnd ℂ) (Complex.I * θ) = -(Complex.I * θ) := by simp [hθ]
  cases g <;> ext a b <;> rw [conjTranspose_apply] <;> simp only [matRot]
  case RX => cases a <;> cases b <;> simp [neg_div, hc, hs]
  case RY => cases a <;> cases b <;> simp [neg_div, hc, hs]
  case RZ =>
    cases a <;> cases b <;> simp [he _ h1, he _ (by rw [map_neg, h1] : (starRingEnd ℂ) (-(Complex.I * θ / 2)) = _)]
    all_goals congr 1; ring
  case PHASE => cases a <;> cases b <;> simp [he _ h2]

theorem bit_swap {a b : ℕ} (ha : a < n) (hb : b < n) {x y : St n}
    (h : ∀ j : Fin n, x j = (if (j : ℕ) = a then bit y b else if (j : ℕ) = b then bit y a else y j)) :
    ∀ j : Fin n, y j = (if (j : ℕ) = a then bit x b else if (j : ℕ) = b then bit x a else x j) := by
  intro j
  have hA := h ⟨a, ha⟩
  have hB := h ⟨b, hb⟩
  simp only [bit, ha, hb, dif_pos] at hA hB ⊢
  by_cases h1 : (j : ℕ) = a
  · have : j = ⟨a, ha⟩ := Fin.ext h1
    subst this
    rw [if_pos rfl, hB]
    by_cases h2 : b = a
    · subst h2; simp
    · rw [if_neg h2, if_pos trivial]
  · rw [if_neg h1]
    by_cases h2 : (j : ℕ) = b
    · have : j = ⟨b, hb⟩ := Fin.ext h2
      subst this
      rw [if_pos rfl, hA, if_pos trivial]
    · rw [if_neg h2, h j, if_neg h1, if_neg h2]

theorem swapOp_conjTranspose {a b : ℕ} (ha : a < n) (hb : b < n) : (swapOp a b : Oper n)ᴴ = swapOp a b := by
  ext x y
  simp only [conjTranspose_apply, swapOp]
  by_cases h : ∀ j : Fin n, x j = (if (j : ℕ) = a then bit y b else if (j : ℕ) = b then bit y a else y j)
  · rw [if_pos h, if_pos (bit_swap ha hb h), star_one]
  · rw [if_neg h, if_neg (fun h' => h (bit_swap ha hb h')), star_zero]

theorem controlled_conjTranspose {cs : List ℕ} {S : Set ℕ} {M : Oper n} (hM : ActsOn S M)
    (hd : ∀ c ∈ cs, c ∉ S) : (controlled cs M)ᴴ = controlled cs Mᴴ := by
  ext x y
  simp only [conjTranspose_apply, controlled]
  by_cases hxy : ∀ c ∈ cs, bit x c = bit y c
  · have : (∀ c ∈ cs, bit y c = true) ↔ ∀ c ∈ cs, bit x c = true :=
      forall_congr' fun c => forall_congr' fun hc => by rw [hxy c hc]
    by_cases h : ∀ c ∈ cs, bit x c = true
    · rw [if_pos h, if_pos (this.2 h)]
    · rw [if_neg h, if_neg (fun h' => h (this.1 h'))]
      by_cases e : x = y
      · simp [e]
      · rw [if_neg e, if_neg (Ne.symm e), star_zero]
  · push Not at hxy
    obtain ⟨c, hc, hne⟩ := hxy
    have hcn : c < n := by
      by_contra hlt
      simp [bit, hlt] at hne
    have hz : ∀ x y : St n, bit x c ≠ bit y c → M x y = 0 := by
      intro x y hne
      apply (hM ⟨c, hcn⟩ (hd c hc)).1
      simpa [bit, hcn] using hne
    have e : x ≠ y := fun e => hne (by rw [e])
    rw [hz y x (Ne.symm hne), if_neg e, if_neg (Ne.symm e)]
    simp

theorem gateDen_dagger (ρ : Env) (g : Gate) (hg : Adjointable ρ g) (hn : ∀ q ∈ g.supp, q < n) :
    (gateDen ρ g.dagger : Oper n) = (gateDen ρ g)ᴴ := by
  have hneg := eval_neg ρ
  induction g with
  | fixed g q => simp only [Gate.dagger, gateDen, embed1_conjTranspose, mat1_dagger]
  | rot g q θ => simp only [Gate.dagger, gateDen, embed1_conjTranspose, hneg, matRot_dagger g hg]
  | u q φ θ ω =>
    obtain ⟨h1, h2, h3, h4⟩ := hg
    simp only [Gate.dagger, gateDen, embed1_conjTranspose, hneg, matRot_dagger _ h1, matRot_dagger _ h2,
      matRot_dagger _ h3, conjTranspose_mul, mul_assoc, h4]
  | swap a b =>
    rw [Gate.dagger, gateDen, swapOp_conjTranspose (hn a (by simp [Gate.supp])) (hn b (by simp [Gate.supp]))]
  | proj k b qs =>
    have hkb : k = b := hg
    subst hkb
    simp only [Gate.dagger, gateDen]
    rw [embed_conjTranspose]
    congr 1
    funext x y
    simp only [conjTranspose_apply, of_apply, ind, and_comm, apply_ite star, star_one, star_zero]
  | matrix rows qs =>
    simp only [Gate.dagger, gateDen]
    rw [embed_conjTranspose]
    congr 1
    funext x y
    rw [conjTranspose_apply]
    exact hg _ _
  | control c cs g ih =>
    obtain ⟨h1, h2⟩ := hg
    simp only [Gate.dagger, gateDen]
    rw [ih h1 (fun q hq => hn q (by simp [Gate.supp, hq])), controlled_conjTranspose (gateDen_actsOn ρ g) h2]

theorem primDen_dagger (ρ : Env) (ord : List ℕ → List ℕ) (p : Prim) (hp : AdjointablePrim n ρ p)
    (hn : ∀ q ∈ p.supp ord, q < n) : (primDen ρ p.dagger : Oper n) = (primDen ρ p)ᴴ := by
  cases p with
  | gate g noise =>
    have : (primDen ρ (Prim.gate g noise).dagger : Oper n) = gateDen ρ g.dagger := by
      cases g <;> simp [Prim.dagger, primDen, Gate.dagger]
    rw [this, primDen]
    exact gateDen_dagger ρ g hp hn
  | hamEvo gen t =>
    obtain ⟨h1, h2⟩ := hp
    simp only [Prim.dagger, primDen, evolution]
    rw [← Matrix.exp_conjTranspose, conjTranspose_smul, h2]
    congr 2
    rw [eval_neg]
    simp [conj_eq_self_of_im h1]

end Spec

theorem Block.daggerAll_eq {L : Type} (ld : L → L) (keep : L → Bool) (bs : List (Block L)) :
    Block.daggerAll ld keep bs = bs.map (Block.dagger ld keep) := by
  induction bs with
  | nil => rfl
  | cons b bs ih => simp [Block.daggerAll, ih]

theorem opProd_conjTranspose (Ms : List (Oper n)) : (opProd Ms)ᴴ = opProd (Ms.map conjTranspose).reverse := by
  induction Ms with
  | nil => simp [opProd]
  | cons M Ms ih =>
    rw [opProd, conjTranspose_mul, ih, List.map_cons, List.reverse_cons, opProd_append]
    simp [opProd]

/-- `dagger` takes adjoints if it does so on the leaves. -/
theorem sem_dagger {L : Type} (S : LeafSem L n) (ρ : Env) (ld : L → L) (keep : L → Bool) (b : Block L)
    (hb : AllLeaves (fun l => S.den (ld l) = (S.den l)ᴴ) b) :
    sem S ρ (b.dagger ld keep) = (sem S ρ b)ᴴ := by
  induction b using Block.induction with
  | leaf l t => simp only [Block.dagger, sem_leaf]; simpa [AllLeaves] using hb
  | scale b s t ih =>
    simp only [AllLeaves] at hb
    simp only [Block.dagger, sem_scale, ih hb, conjTranspose_smul, eval, RCLike.star_def]
  | comp k bs t ih =>
    simp only [AllLeaves, allLeavesList_iff] at hb
    have hmap : (bs.map (Block.dagger ld keep)).map (sem S ρ) = (bs.map (sem S ρ)).map conjTranspose := by
      rw [List.map_map, List.map_map]
      apply List.map_congr_left
      intro b hbm
      exact ih b hbm (hb b hbm)
    simp only [Block.dagger, Block.daggerAll_eq]
    cases k with
    | chain => rw [sem_chain, sem_chain, List.map_reverse, hmap, opProd_conjTranspose]
    | kron => rw [sem_kron, sem_kron, List.map_reverse, hmap, opProd_conjTranspose]
    | add =>
      rw [sem_add, sem_add, List.map_reverse, hmap, List.sum_reverse]
      induction bs.map (sem S ρ) with
      | nil => simp
      | cons M Ms ih' => simp [conjTranspose_add, ih']

theorem allLeaves_mono {L : Type} {P Q : L → Prop} (b : Block L) (supp : L → List ℕ)
    (h : ∀ l, P l → (∀ q ∈ supp l, q ∈ qubits supp b) → Q l) (hb : AllLeaves P b) : AllLeaves Q b := by
  induction b using Block.induction with
  | leaf l t => exact h l hb (fun q hq => by simpa [qubits_leaf] using hq)
  | scale b s t ih =>
    simp only [AllLeaves] at hb ⊢
    exact ih (by simpa only [qubits_scale] using h) hb
  | comp k bs t ih =>
    simp only [AllLeaves, allLeavesList_iff] at hb ⊢
    intro b hbm
    exact ih b hbm (fun l hl hq => h l hl fun q hq' => mem_qubits_comp.2 ⟨b, hbm, hq q hq'⟩) (hb b hbm)

/-- **C14** (partial: excludes `U` with different outer angles, projectors with different ket and bra and matrix
blocks which are not Hermitian, for which it is false): `dagger` denotes the adjoint. Angles are real numbers and
generators Hermitian. -/
theorem C14_dagger_adjoint_partial (ρ : Env) {ord : List ℕ → List ℕ} (ho : Block.SetOrder ord) (b : Block Prim)
    (hb : AllLeaves (AdjointablePrim n ρ) b) (hn : ∀ q ∈ qubits (Prim.supp ord) b, q < n) :
    sem (primSem n ρ ord ho) ρ b.daggerPrim = (sem (primSem n ρ ord ho) ρ b)ᴴ := by
  apply sem_dagger
  apply allLeaves_mono b (Prim.supp ord) _ hb
  intro l hl hq
  exact primDen_dagger ρ ord l hl fun q hq' => hn q (hq q hq')

theorem eval_neg_neg (ρ : Env) (e : Expr) : eval ρ (.neg (.neg e)) = eval ρ e := by
  rw [eval_neg, eval_neg, neg_neg]

theorem gateDen_dagger_dagger (ρ : Env) (g : Gate) : (gateDen ρ g.dagger.dagger : Oper n) = gateDen ρ g := by
  induction g with
  | fixed g q => cases g <;> rfl
  | rot g q θ => simp only [Gate.dagger, gateDen, eval_neg_neg]
  | u q φ θ ω => simp only [Gate.dagger, gateDen, eval_neg_neg]
  | swap a b => rfl
  | proj k b qs => rfl
  | matrix m qs => rfl
  | control c cs g ih => simp only [Gate.dagger, gateDen, ih]

/-- **C14**: for every block, applying `dagger` twice gives the same operator. -/
theorem C14_dagger_involution (ρ : Env) {ord : List ℕ → List ℕ} (ho : Block.SetOrder ord) (b : Block Prim) :
    sem (primSem n ρ ord ho) ρ b.daggerPrim.daggerPrim = sem (primSem n ρ ord ho) ρ b := by
  induction b using Block.induction with
  | leaf l t =>
    simp only [Block.daggerPrim, Block.dagger, sem_leaf, primSem]
    cases l with
    | gate g noise =>
      have h : ∀ g noise, ∃ noise', (Prim.gate g noise).dagger = .gate g.dagger noise' := by
        intro g noise
        cases g <;> exact ⟨_, rfl⟩
      obtain ⟨n1, h1⟩ := h g noise
      obtain ⟨n2, h2⟩ := h g.dagger n1
      rw [h1, h2, primDen, primDen, gateDen_dagger_dagger]
    | hamEvo gen t => simp only [Prim.dagger, primDen, eval_neg_neg]
  | scale b s t ih =>
    simp only [Block.daggerPrim, Block.dagger, sem_scale, eval, Complex.conj_conj] at ih ⊢
    rw [ih]
  | comp k bs t ih =>
    have hmap : ((bs.map (Block.dagger Prim.dagger Prim.daggerKeepsTag)).map
        (Block.dagger Prim.dagger Prim.daggerKeepsTag)).map (sem (primSem n ρ ord ho) ρ) =
        bs.map (sem (primSem n ρ ord ho) ρ) := by
      rw [List.map_map, List.map_map]
      exact List.map_congr_left fun b hb => ih b hb
    simp only [Block.daggerPrim, Block.dagger, Block.daggerAll_eq]
    rw [List.map_reverse, List.reverse_reverse]
    cases k with
    | chain => rw [sem_chain, sem_chain, hmap]
    | kron => rw [sem_kron, sem_kron, hmap]
    | add => rw [sem_add, sem_add, hmap]

/-- **C14**: the supports stay the same, hence krons stay valid. -/
theorem C14_dagger_qubits {ord : List ℕ → List ℕ} (b : Block Prim) :
    qubits (Prim.supp ord) b.daggerPrim = qubits (Prim.supp ord) b := by
  induction b using Block.induction with
  | leaf l t =>
    simp only [Block.daggerPrim, Block.dagger, qubits_leaf]
    have hs : ∀ g : Gate, g.dagger.supp = g.supp := by
      intro g; induction g <;> simp_all [Gate.dagger, Gate.supp]
    have : l.dagger.supp ord = l.supp ord := by
      cases l with
      | gate g noise =>
        have : ∃ noise', (Prim.gate g noise).dagger = .gate g.dagger noise' := by cases g <;> exact ⟨_, rfl⟩
        obtain ⟨n1, h1⟩ := this
        rw [h1, Prim.supp, Prim.supp, hs]
      | hamEvo gen t => rfl
    rw [this]
  | scale b s t ih => simpa only [Block.daggerPrim, Block.dagger, qubits_scale] using ih
  | comp k bs t ih =>
    ext q
    simp only [Block.daggerPrim, Block.dagger, Block.daggerAll_eq, mem_qubits_comp, List.mem_reverse,
      List.mem_map, exists_exists_and_eq_and]
    constructor
    · rintro ⟨b, hb, h⟩
      exact ⟨b, hb, by have := ih b hb; rw [Block.daggerPrim] at this; rwa [this] at h⟩
    · rintro ⟨b, hb, h⟩
      exact ⟨b, hb, by have := ih b hb; rw [Block.daggerPrim] at this; rwa [this]⟩

/-- **C14**: a projector `|0><1|` is its own dagger in qadence, but not its own adjoint. -/
theorem C14_counterexample_projector (ρ : Env) :
    (gateDen ρ (Gate.proj [false] [true] [0]).dagger : Oper 1) ≠ (gateDen ρ (Gate.proj [false] [true] [0]))ᴴ := by
  intro h
  have := congrFun (congrFun h (fun _ => false)) (fun _ => true)
  simp [Gate.dagger, gateDen, embed, ind, bit, conjTranspose_apply] at this

/-- **C14**: a matrix block is its own dagger even if the matrix is not Hermitian. -/
theorem C14_counterexample_matrix (ρ : Env) :
    (gateDen ρ (Gate.matrix [[.num 1 0, .num 0 0], [.num 0 0, .num 0 1]] [0]).dagger : Oper 1) ≠
      (gateDen ρ (Gate.matrix [[.num 1 0, .num 0 0], [.num 0 0, .num 0 1]] [0]))ᴴ := by
  intro h
  have := congrFun (congrFun h (fun _ => true)) (fun _ => true)
  simp [Gate.dagger, gateDen, embed, bit, conjTranspose_apply, bitsValue, eval, Complex.ext_iff] at this
  norm_num at this

/-- **C14**: the dagger of `U(phi=π, theta=π, omega=0)` is not the adjoint. -/
theorem C14_counterexample_u (ρ : Env) :
    (gateDen ρ (Gate.u 0 .pi .pi (.num 0 0)).dagger : Oper 1) ≠ (gateDen ρ (Gate.u 0 .pi .pi (.num 0 0)))ᴴ := by
  intro h
  have := congrFun (congrFun h (fun _ => true)) (fun _ => false)
  have e1 : Complex.exp (Complex.I * Real.pi / 2) = Complex.I := by
    rw [show Complex.I * (Real.pi : ℂ) / 2 = Real.pi / 2 * Complex.I by ring, Complex.exp_pi_div_two_mul_I]
  have e2 : Complex.exp (-(Complex.I * Real.pi / 2)) = -Complex.I := by
    rw [Complex.exp_neg, e1, Complex.inv_I]
  have hu : ∀ (a b c : ℂ), (matRot c .RZ * matRot b .RY * matRot a .RZ) true false =
      Complex.exp (Complex.I * c / 2) * Complex.sin (b / 2) * Complex.exp (-(Complex.I * a / 2)) := by
    intro a b c; rw [Matrix.mul_apply]; simp only [Fintype.sum_bool, Matrix.mul_apply]; simp [matRot]
  have hu' : ∀ (a b c : ℂ), (matRot c .RZ * matRot b .RY * matRot a .RZ) false true =
      Complex.exp (-(Complex.I * c / 2)) * (-Complex.sin (b / 2)) * Complex.exp (Complex.I * a / 2) := by
    intro a b c; rw [Matrix.mul_apply]; simp only [Fintype.sum_bool, Matrix.mul_apply]; simp [matRot]
  rw [conjTranspose_apply] at this
  simp only [Gate.dagger, gateDen, embed1, eval_neg, eval_zero] at this
  rw [if_pos (by intro j hj; omega), if_pos (by intro j hj; omega)] at this
  simp only [bit, Nat.zero_lt_one, dif_pos] at this
  rw [hu, hu'] at this
  simp [eval, neg_div, e1, e2] at this
  rw [Complex.ext_iff] at this
  norm_num at this

/-- A block meeting the hypotheses: `kron(CRX(0, 1, x), S(2)) * 2i`, then an evolution. -/
example (ρ : Env) (hx : (ρ.var "x").im = 0) : AllLeaves (AdjointablePrim 3 ρ)
    (.comp .chain [.scale (.comp .kron [.leaf (.gate (Gate.crx 0 1 (.var "x")) none) none,
      .leaf (.gate (.fixed .S 2) none) none] none) (.num 0 2) none,
      .leaf (.hamEvo (.leaf (.fixed .Z 0) none) .pi) (some "evo")] none) := by
  simp only [AllLeaves, AllLeavesList, AdjointablePrim, Adjointable, Gate.crx, eval, Complex.ofReal_im]
  refine ⟨⟨⟨hx, by simp [Gate.supp]⟩, trivial, trivial⟩, ⟨trivial, ?_⟩, trivial⟩
  have := gateDen_dagger (n := 3) ρ (.fixed .Z 0) trivial (by simp [Gate.supp])
  simpa [sem_leaf, Gate.dagger, FixedGate.dagger] using this.symm

end Qadence
