import Verif.Model.Serialize
import Verif.Spec.Serialize
import Verif.Proofs.Equality
import Verif.Props.Noise

/-!
# Lemmas about dictionaries of blocks
-/

namespace Qadence

open Spec

variable {L E : Type} {ser : Expr → E} {des : E → Except PyErr Expr} {ord : List ℕ → List ℕ}

/-! ## Removing tags -/

theorem untags_eq_map (bs : List (Block L)) : untags bs = bs.map untag := by
  induction bs with
  | nil => rfl
  | cons b bs ih => simp [untags, ih]

theorem supports_map (supp : L → List ℕ) (bs : List (Block L)) : Block.supports supp ord bs = bs.map (Block.support supp ord) := by
  induction bs with
  | nil => simp [Block.supports]
  | cons b bs ih => simp [Block.supports, ih]

theorem support_untag (supp : L → List ℕ) (b : Block L) : Block.support supp ord (untag b) = Block.support supp ord b := by
  induction b using Block.induction with
  | leaf l t => simp [untag, Block.support]
  | scale b s t ih => simp [untag, Block.support, ih]
  | comp k bs t ih =>
    simp only [untag, Block.support, untags_eq_map, supports_map, List.map_map]
    congr 2
    exact List.map_congr_left fun b hb => ih b hb

theorem supports_untags (supp : L → List ℕ) (bs : List (Block L)) :
    Block.supports supp ord (untags bs) = Block.supports supp ord bs := by
  rw [untags_eq_map, supports_map, supports_map, List.map_map]
  exact List.map_congr_left fun b _ => support_untag supp b

theorem same_untag (b : Block L) : Same Eq Eq b (untag b) := by
  induction b using Block.induction with
  | leaf l t => exact .leaf _ _ rfl
  | scale b s t ih => rw [untag]; exact .scale _ _ ih rfl
  | comp k bs t ih =>
    rw [untag, untags_eq_map]
    have h : SameList Eq Eq bs (bs.map untag) := by
      rw [sameList_iff]
      clear t
      induction bs with
      | nil => exact .nil
      | cons c cs ih2 => exact .cons (ih c (by simp)) (ih2 fun b hb => ih b (by simp [hb]))
    cases k with
    | chain => exact .chain _ h
    | kron => exact .kron _ h (List.Perm.refl _)
    | add => exact .add _ h (List.Perm.refl _)

theorem same_untagParts (b : Block L) : Same Eq Eq b (untagParts b) := by
  cases b with
  | leaf l t => exact .leaf _ _ rfl
  | scale b s t => exact .scale _ _ (same_untag b) rfl
  | comp k bs t =>
    have := same_untag (Block.comp k bs t)
    rwa [untag] at this

theorem retag_untag (b : Block L) : (untag b).retag b.tag = untagParts b := by
  cases b with
  | leaf l t => cases t <;> simp [untag, untagParts, Block.retag, Block.withTag, Block.tag]
  | scale b s t => cases t <;> simp [untag, untagParts, Block.retag, Block.withTag, Block.tag]
  | comp k bs t => cases t <;> simp [untag, untagParts, Block.retag, Block.withTag, Block.tag]

/-- Without tags on gates and scale blocks nothing is removed. -/
theorem untag_eq_self (b : Block L) : (∀ l t, Occurs (.leaf l t) b → t = none) → (∀ c s t, Occurs (.scale c s t) b → t = none) →
    untag b = b := by
  induction b using Block.induction with
  | leaf l t => intro h _; rw [untag, h l t .self]
  | scale b s t ih =>
    intro h h'
    rw [untag, h' b s t .self, ih (fun l u hu => h l u (.scale _ _ hu)) (fun c s u hu => h' c s u (.scale _ _ hu))]
  | comp k bs t ih =>
    intro h h'
    rw [untag, untags_eq_map]
    congr 1
    conv_rhs => rw [← List.map_id bs]
    exact List.map_congr_left fun b hb =>
      ih b hb (fun l u hu => h l u (.comp _ _ hb hu)) (fun c s u hu => h' c s u (.comp _ _ hb hu))

/-! ## Names of classes -/

theorem ofName_fixed (g : FixedGate) : ∃ g', BClass.ofName g.className = some (.fixed g') ∧
    ((∀ s, g ≠ .N s) → g' = g) ∧ ((∃ s, g = .N s) → ∃ s, g' = .N s) := by
  cases g with
  | N s => exact ⟨.N true, by simp [FixedGate.className]; decide +kernel, by simp, fun _ => ⟨_, rfl⟩⟩
  | _ => exact ⟨_, by simp only [FixedGate.className]; decide +kernel, fun _ => rfl, by simp⟩

theorem ofName_rot (g : RotGate) : BClass.ofName g.className = some (.rot g) := by cases g <;> decide +kernel

theorem ofName_ctrl (c : CtrlClass) : BClass.ofName c.className = some (.ctrl c) := by cases c <;> decide +kernel

theorem ofName_comp (k : CKind) : BClass.ofName k.className = some (.comp k) := by cases k <;> decide +kernel

theorem ofName_swap : BClass.ofName "SWAP" = some .swap := by decide +kernel
theorem ofName_proj : BClass.ofName "Projector" = some .proj := by decide +kernel
theorem ofName_matrix : BClass.ofName "MatrixBlock" = some .matrix := by decide +kernel
theorem ofName_u : BClass.ofName "U" = some .u := by decide +kernel
theorem ofName_hamEvo : BClass.ofName "HamEvo" = some .hamEvo := by decide +kernel
theorem ofName_scale : BClass.ofName "ScaleBlock" = some .scale := by decide +kernel

theorem withClass_some {α : Type} {name : String} {c : BClass} (h : BClass.ofName name = some c) (f : BClass → Except PyErr α) :
    withClass name f = f c := by rw [withClass, h]

/-! ## Gates -/

/-- The noise of a block is missing or valid. -/
def NoiseOk (ν : Option (NoiseHandler Rat)) : Prop := ∀ h ∈ ν, ValidNoise h.protocol h.options

theorem noise_round_trip {ν : Option (NoiseHandler Rat)} (h : NoiseOk ν) : NoiseHandler.fromDict (noiseDump ν) = .ok ν := by
  cases ν with
  | none => rfl
  | some h' => exact C25_dict_round_trip h' (h h' rfl)

theorem theParameter_one (θ : Expr) : theParameter [("parameter", θ)] = .ok θ := by
  have h : List.lookup "parameter" [("parameter", θ)] = some θ := by simp [List.lookup]
  rw [theParameter, h]

theorem paramsLoad_one {θ : Expr} (h : des (ser θ) = .ok θ) : paramsLoad des [("parameter", ser θ)] = .ok [("parameter", θ)] := by
  simp [paramsLoad, h, bind, Except.bind, pure, Except.pure]

theorem gate_load (hb : ∀ θ ∈ gateParameters g, des (ser θ) = .ok θ) (hg : BuiltGate g) (hl : LoadableGate g) {ν}
    (hν : NoiseOk ν) (t : Option String) : Block.load des ord (g.dump ser t ν) = .ok (.leaf (.gate g ν) none) := by
  have hn := noise_round_trip hν
  cases hl with
  | one g q hm =>
    simp only [List.mem_cons, List.not_mem_nil, or_false] at hm
    obtain ⟨g', h1, h2, -⟩ := ofName_fixed g
    obtain rfl := h2 (by rcases hm with h | h | h | h | h | h | h | h | h <;> simp [h])
    rw [Gate.dump, Block.load, withClass_some h1, primLoad, hn, ok_bind]
    rcases hm with h | h | h | h | h | h | h | h | h <;> subst h <;> rfl
  | rot g q θ hm =>
    have hd := hb θ (by simp [gateParameters])
    rw [Gate.dump, Block.load, withClass_some (ofName_rot g), paramLoad, paramsLoad_one hd, ok_bind]
    simp only [hn, ok_bind]
    simp only [List.mem_cons, List.not_mem_nil, or_false] at hm
    rcases hm with h | h | h <;> subst h <;> simp [paramNew, theParameter_one, ok_bind, pure, Except.pure]
  | swap a b =>
    rw [Gate.dump, Block.load, withClass_some ofName_swap, primLoad, hn, ok_bind, primNew]
    cases hg with
    | swap h => rw [if_neg h]
  | cnot c u =>
    have hc : c ≠ u := by
      generalize he : Gate.cnot c u = x at hg
      cases hg <;> simp_all [Gate.cnot, Gate.cz, Gate.mcz, Gate.toffoli, Gate.cswap]
    rw [Gate.cnot, Gate.dump, Block.load, withClass_some (ofName_ctrl .CNOT)]
    simp [Gate.supp, ctrlLoad, CtrlClass.isParametric, hn, ok_bind, ctrlNew, hc, Gate.cnot]
  | cz c u =>
    have hc : c ≠ u := by
      generalize he : Gate.cz c u = x at hg
      cases hg <;> simp_all [Gate.cnot, Gate.cz, Gate.mcz, Gate.toffoli, Gate.cswap]
    rw [Gate.cz, Gate.dump, Block.load, withClass_some (ofName_ctrl .CZ)]
    simp [Gate.supp, ctrlLoad, CtrlClass.isParametric, hn, ok_bind, ctrlNew, hc, Gate.cz]

theorem fixed_refused (g : FixedGate) (hg : g = .Zero ∨ ∃ s, g = .N s) (q : ℕ) {ν} (hν : NoiseOk ν) (t : Option String) :
    Block.load des ord ((Gate.fixed g q).dump ser t ν) = .error .typeError := by
  obtain ⟨g', h1, h2, h3⟩ := ofName_fixed g
  rw [Gate.dump, Block.load, withClass_some h1, primLoad, noise_round_trip hν, ok_bind]
  rcases hg with h | h
  · obtain rfl := h2 (by simp [h])
    rw [h]
    rfl
  · obtain ⟨s, rfl⟩ := h3 h
    rfl

theorem phase_refused (q : ℕ) (θ : Expr) (hd : des (ser θ) = .ok θ) {ν} (hν : NoiseOk ν) (t : Option String) :
    Block.load des ord ((Gate.rot .PHASE q θ).dump ser t ν) = .error .typeError := by
  rw [Gate.dump, Block.load, withClass_some (ofName_rot .PHASE), paramLoad, paramsLoad_one hd, ok_bind]
  simp only [noise_round_trip hν, ok_bind, paramNew]

theorem u_refused (q : ℕ) (φ θ ω : Expr) (h1 : des (ser φ) = .ok φ) (h2 : des (ser θ) = .ok θ) (h3 : des (ser ω) = .ok ω) {ν}
    (hν : NoiseOk ν) (t : Option String) : Block.load des ord ((Gate.u q φ θ ω).dump ser t ν) = .error .typeError := by
  rw [Gate.dump, Block.load, withClass_some ofName_u, paramLoad]
  simp only [paramsLoad, h1, h2, h3, ok_bind, pure, Except.pure, noise_round_trip hν, paramNew]

theorem proj_refused (ket bra : List Bool) (qs : List ℕ) {ν} (hν : NoiseOk ν) (t : Option String) :
    Block.load des ord ((Gate.proj ket bra qs).dump ser t ν) = .error .typeError := by
  rw [Gate.dump, Block.load, withClass_some ofName_proj, primLoad, noise_round_trip hν, ok_bind, primNew]

theorem matrix_refused (rows : List (List Expr)) (qs : List ℕ) {ν} (hν : NoiseOk ν) (t : Option String) :
    Block.load des ord ((Gate.matrix rows qs).dump ser t ν) =
      .error (if 1 ≤ qs.length ∧ qs.length ≤ 4 then .attributeError else .typeError) := by
  rw [Gate.dump, Block.load, withClass_some ofName_matrix, primLoad, noise_round_trip hν, ok_bind, primNew]
  split_ifs <;> rfl

theorem ctrl_load (c : CtrlClass) (cs : List ℕ) (g : Gate) {ν} (t : Option String) :
    Block.load des ord ((Gate.control c cs g).dump ser t ν) = ctrlLoad (.ctrl c) (cs ++ g.supp) (noiseDump ν) := by
  rw [Gate.dump, Block.load, withClass_some (ofName_ctrl c)]

/-- Controlled gates other than `CNOT` and `CZ`. -/
theorem ctrl_refused (c : CtrlClass) (hc : c ≠ .CNOT ∧ c ≠ .CZ) (cs : List ℕ) (hcs : cs ≠ []) (g : Gate) (hs : g.supp ≠ []) {ν} (hν : NoiseOk ν)
    (t : Option String) : Block.load des ord ((Gate.control c cs g).dump ser t ν) =
      .error (if c.isParametric then .valueError else .typeError) := by
  rw [ctrl_load]
  obtain ⟨q₀, q₁, r, h⟩ : ∃ q₀ q₁ r, cs ++ g.supp = q₀ :: q₁ :: r := by
    match cs, hcs, hg : g.supp, hs with
    | [a], _, b :: r, _ => exact ⟨a, b, r, by simp⟩
    | a :: b :: r, _, s, _ => exact ⟨a, b, r ++ s, by simp⟩
  rw [h, ctrlLoad, noise_round_trip hν]
  cases c <;> simp_all [CtrlClass.isParametric, ctrlNew, ok_bind]

theorem ctrl_short (c : CtrlClass) (g : Gate) {q : ℕ} (hs : g.supp = [q]) {ν} (t : Option String) :
    Block.load des ord ((Gate.control c [] g).dump ser t ν) = .error .indexError := by
  rw [ctrl_load, hs]
  rfl

theorem gate_refused {g : Gate} (hb : ∀ θ ∈ gateParameters g, des (ser θ) = .ok θ) (hg : BuiltGate g) (hl : ¬ LoadableGate g) {ν}
    (hν : NoiseOk ν) (t : Option String) : ∃ e, Block.load des ord (g.dump ser t ν) = .error e := by
  have key : ∀ (c : CtrlClass) (cs : List ℕ) (g : Gate) (q : ℕ), g.supp = [q] → c ≠ .CNOT ∧ c ≠ .CZ →
      ∃ e, Block.load des ord ((Gate.control c cs g).dump ser t ν) = .error e := by
    intro c cs g q hs hc
    by_cases h : cs = []
    · subst h; exact ⟨_, ctrl_short c g hs t⟩
    · exact ⟨_, ctrl_refused c hc cs h g (by simp [hs]) hν t⟩
  cases hg with
  | fixed g q =>
    refine ⟨_, fixed_refused g ?_ q hν t⟩
    by_contra hne
    push Not at hne
    refine hl (.one g q ?_)
    cases g <;> simp_all
  | rot g q θ =>
    cases g with
    | PHASE => exact ⟨_, phase_refused q θ (hb θ (by simp [gateParameters])) hν t⟩
    | _ => exact absurd (.rot _ q θ (by simp)) hl
  | u q φ θ ω => exact ⟨_, u_refused q φ θ ω (hb _ (by simp [gateParameters])) (hb _ (by simp [gateParameters])) (hb _ (by simp [gateParameters])) hν t⟩
  | swap h => exact absurd (.swap _ _) hl
  | proj ket bra qs => exact ⟨_, proj_refused ket bra qs hν t⟩
  | matrix rows qs => exact ⟨_, matrix_refused rows qs hν t⟩
  | cnot h => exact absurd (.cnot _ _) hl
  | cz h => exact absurd (.cz _ _) hl
  | mcz h => exact key .MCZ _ _ _ rfl (by simp)
  | toffoli h => exact key .Toffoli _ _ _ rfl (by simp)
  | cswap h => exact ⟨_, ctrl_refused .CSWAP (by simp) _ (by simp) _ (by simp [Gate.supp]) hν t⟩
  | rotated k g θ h _ => exact key k _ _ _ rfl (by constructor <;> rintro rfl <;> simp at h)

theorem hamEvo_refused (gen : Block Gate) (s : Expr) (hd : des (ser s) = .ok s) (t : Option String) :
    Block.load des ord ((Prim.hamEvo gen s).dump ser ord t) =
      .error (if gen.support Gate.supp ord = [] then .indexError else .valueError) := by
  rw [Prim.dump, Block.load, withClass_some ofName_hamEvo, paramLoad, paramsLoad_one hd, ok_bind]
  cases h : gen.support Gate.supp ord with
  | nil => simp
  | cons q qs => simp [NoiseHandler.fromDict, ok_bind, paramNew]

/-! ## Blocks -/

/-- A primitive block as its constructor gives it, with valid noise, and with parameters which survive being written and
read. -/
def StorablePrim (ser : Expr → E) (des : E → Except PyErr Expr) (l : Prim) : Prop :=
  (∀ g ν, l = .gate g ν → BuiltGate g ∧ NoiseOk ν) ∧ ∀ θ ∈ primParameters l, des (ser θ) = .ok θ

theorem prim_load {l : Prim} (h : StorablePrim ser des l) (hl : LoadablePrim l) (t : Option String) :
    Block.load des ord (l.dump ser ord t) = .ok (.leaf l none) := by
  cases hl with
  | gate ν hg => exact gate_load h.2 (h.1 _ _ rfl).1 hg (h.1 _ _ rfl).2 t

theorem prim_refused {l : Prim} (h : StorablePrim ser des l) (hl : ¬ LoadablePrim l) (t : Option String) :
    ∃ e, Block.load des ord (l.dump ser ord t) = .error e := by
  cases l with
  | gate g ν => exact gate_refused h.2 (h.1 _ _ rfl).1 (fun hg => hl (.gate ν hg)) (h.1 _ _ rfl).2 t
  | hamEvo gen s => exact ⟨_, hamEvo_refused gen s (h.2 s (by simp [primParameters])) t⟩

theorem dumps_eq_map (bs : List (Block Prim)) : Block.dumps ser ord bs = bs.map (Block.dump ser ord) := by
  induction bs with
  | nil => simp [Block.dumps]
  | cons b bs ih => simp [Block.dumps, ih]

theorem loads_ok {bs : List (Block Prim)} (h : ∀ b ∈ bs, Block.load des ord (Block.dump ser ord b) = .ok (untag b)) :
    Block.loads des ord (Block.dumps ser ord bs) = .ok (untags bs) := by
  induction bs with
  | nil => simp [Block.dumps, Block.loads, untags]
  | cons b bs ih =>
    rw [Block.dumps, Block.loads, h b (by simp), ok_bind, ih fun c hc => h c (by simp [hc]), ok_bind, untags]
    rfl

theorem loads_error {bs : List (Block Prim)} {b : Block Prim} (hb : b ∈ bs) (h : ∃ e, Block.load des ord (Block.dump ser ord b) = .error e) :
    ∃ e, Block.loads des ord (Block.dumps ser ord bs) = .error e := by
  induction bs with
  | nil => simp at hb
  | cons c bs ih =>
    rw [Block.dumps, Block.loads]
    cases hc : Block.load des ord (Block.dump ser ord c) with
    | error e => exact ⟨e, rfl⟩
    | ok c' =>
      rcases List.mem_cons.1 hb with rfl | hb
      · obtain ⟨e, he⟩ := h
        rw [he] at hc
        cases hc
      · obtain ⟨e, he⟩ := ih hb
        exact ⟨e, by rw [ok_bind, he]; rfl⟩

/-- A block as the constructors give it: primitive blocks and scales as above, krons are accepted by `kron`. -/
structure Storable (ser : Expr → E) (des : E → Except PyErr Expr) (ord : List ℕ → List ℕ) (b : Block Prim) : Prop where
  leaves : ∀ l t, Occurs (.leaf l t) b → StorablePrim ser des l
  scales : ∀ c s t, Occurs (.scale c s t) b → des (ser s) = .ok s
  krons : ∀ bs t, Occurs (.comp .kron bs t) b → Block.kronOf (Prim.supp ord) ord bs = .ok (.comp .kron bs none)

theorem Storable.scale {b : Block Prim} {s t} (h : Storable ser des ord (.scale b s t)) : Storable ser des ord b where
  leaves l u hu := h.leaves l u (.scale _ _ hu)
  scales c s u hu := h.scales c s u (.scale _ _ hu)
  krons bs u hu := h.krons bs u (.scale _ _ hu)

theorem Storable.part {k bs t} {b : Block Prim} (h : Storable ser des ord (.comp k bs t)) (hb : b ∈ bs) : Storable ser des ord b where
  leaves l u hu := h.leaves l u (.comp _ _ hb hu)
  scales c s u hu := h.scales c s u (.comp _ _ hb hu)
  krons bs u hu := h.krons bs u (.comp _ _ hb hu)

theorem storable_leaf {l : Prim} (t : Option String) (h : StorablePrim ser des l) : Storable ser des ord (.leaf l t) where
  leaves l u hu := by cases hu; exact h
  scales c s u hu := by cases hu
  krons bs u hu := by cases hu

theorem storable_scale {b : Block Prim} {s : Expr} (t : Option String) (h : Storable ser des ord b) (hs : des (ser s) = .ok s) :
    Storable ser des ord (.scale b s t) where
  leaves l u hu := by cases hu with | scale _ _ hu => exact h.leaves l u hu
  scales c s u hu := by
    cases hu with
    | self => exact hs
    | scale _ _ hu => exact h.scales c s u hu
  krons bs u hu := by cases hu with | scale _ _ hu => exact h.krons bs u hu

theorem storable_comp {k : CKind} {bs : List (Block Prim)} (t : Option String) (h : ∀ b ∈ bs, Storable ser des ord b)
    (hk : k = .kron → Block.kronOf (Prim.supp ord) ord bs = .ok (.comp .kron bs none)) : Storable ser des ord (.comp k bs t) where
  leaves l u hu := by cases hu with | comp _ _ hb hu => exact (h _ hb).leaves l u hu
  scales c s u hu := by cases hu with | comp _ _ hb hu => exact (h _ hb).scales c s u hu
  krons bs u hu := by
    cases hu with
    | self => exact hk rfl
    | comp _ _ hb hu => exact (h _ hb).krons bs u hu

theorem leaves_leaf {L : Type} {l : L} {p : L → Prop} (t : Option String) (h : p l) : ∀ l' t', Occurs (.leaf l' t') (Block.leaf l t) → p l' := by
  intro l' t' ho
  cases ho
  exact h

theorem leaves_scale {L : Type} {b : Block L} {p : L → Prop} (s : Expr) (t : Option String) (h : ∀ l' t', Occurs (.leaf l' t') b → p l') :
    ∀ l' t', Occurs (.leaf l' t') (Block.scale b s t) → p l' := by
  intro l' t' ho
  cases ho with | scale _ _ ho => exact h l' t' ho

theorem leaves_comp {L : Type} {bs : List (Block L)} {p : L → Prop} (k : CKind) (t : Option String)
    (h : ∀ b ∈ bs, ∀ l' t', Occurs (.leaf l' t') b → p l') : ∀ l' t', Occurs (.leaf l' t') (Block.comp k bs t) → p l' := by
  intro l' t' ho
  cases ho with | comp _ _ hb ho => exact h _ hb l' t' ho

theorem kronOf_untags {bs : List (Block Prim)} (h : Block.kronOf (Prim.supp ord) ord bs = .ok (.comp .kron bs none)) :
    Block.kronOf (Prim.supp ord) ord (untags bs) = .ok (.comp .kron (untags bs) none) := by
  rw [Block.kronOf, supports_untags]
  have he : (untags bs).isEmpty = bs.isEmpty := by rw [untags_eq_map]; cases bs <;> rfl
  rw [he]
  rw [Block.kronOf] at h
  split_ifs at h ⊢
  rfl

theorem compNew_untags {k bs t} (h : Storable ser des ord (.comp k bs t)) :
    compNew ord k (untags bs) = .ok (.comp k (untags bs) none) := by
  cases k with
  | chain => rfl
  | add => rfl
  | kron => exact kronOf_untags (h.krons bs t .self)

theorem load_dump (b : Block Prim) : Storable ser des ord b → (∀ l t, Occurs (.leaf l t) b → LoadablePrim l) →
    Block.load des ord (b.dump ser ord) = .ok (untag b) := by
  induction b using Block.induction with
  | leaf l t =>
    intro h hl
    rw [Block.dump, prim_load (h.leaves l t .self) (hl l t .self), untag]
  | scale b s t ih =>
    intro h hl
    rw [Block.dump, Block.load, withClass_some ofName_scale, if_pos rfl, paramsLoad_one (h.scales b s t .self), ok_bind,
      ih h.scale (fun l u hu => hl l u (.scale _ _ hu)), ok_bind, scaleNew, theParameter_one, untag]
    rfl
  | comp k bs t ih =>
    intro h hl
    rw [Block.dump, Block.load, withClass_some (ofName_comp k)]
    simp only [withComp]
    rw [loads_ok fun b hb => ih b hb (h.part hb) fun l u hu => hl l u (.comp _ _ hb hu), ok_bind, compNew_untags h, ok_bind, untag]
    cases t <;> rfl

theorem load_refused (b : Block Prim) : Storable ser des ord b → (∃ l t, Occurs (.leaf l t) b ∧ ¬ LoadablePrim l) →
    ∃ e, Block.load des ord (b.dump ser ord) = .error e := by
  induction b using Block.induction with
  | leaf l t =>
    rintro h ⟨l', t', ho, hl⟩
    cases ho
    rw [Block.dump]
    exact prim_refused (h.leaves l t .self) hl t
  | scale b s t ih =>
    rintro h ⟨l, u, ho, hl⟩
    cases ho with
    | scale _ _ ho =>
      obtain ⟨e, he⟩ := ih h.scale ⟨l, u, ho, hl⟩
      refine ⟨e, ?_⟩
      rw [Block.dump, Block.load, withClass_some ofName_scale, if_pos rfl, paramsLoad_one (h.scales b s t .self), ok_bind, he]
      rfl
  | comp k bs t ih =>
    rintro h ⟨l, u, ho, hl⟩
    cases ho with
    | comp _ _ hb ho =>
      obtain ⟨e, he⟩ := loads_error (ser := ser) (des := des) (ord := ord) hb (ih _ hb (h.part hb) ⟨l, u, ho, hl⟩)
      refine ⟨e, ?_⟩
      rw [Block.dump, Block.load, withClass_some (ofName_comp k)]
      simp only [withComp]
      rw [he]
      rfl

theorem dump_tag (b : Block Prim) : (b.dump ser ord).tag = b.tag := by
  cases b with
  | leaf l t =>
    rw [Block.dump, Block.tag]
    cases l with
    | gate g ν => cases g <;> rfl
    | hamEvo gen s => rfl
  | scale b s t => rw [Block.dump]; rfl
  | comp k bs t => rw [Block.dump]; rfl

end Qadence
