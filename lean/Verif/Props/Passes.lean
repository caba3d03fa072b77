import Verif.Model.Passes
import Verif.Proofs.BlockSem
import Mathlib.Data.List.Lex

/-!
# C10 (pushing scales), C13 (unrolling observables), C17 (transpile), C22 (lookup by tag)
-/

namespace Qadence

open Spec

variable {L : Type} {n : ℕ}

/-! ## C10 -/

namespace Spec

/-- Every scale factor is applied to a primitive block. -/
inductive ScalesOnLeaves : Block L → Prop
  | leaf (l t) : ScalesOnLeaves (.leaf l t)
  | scale (l t s u) : ScalesOnLeaves (.scale (.leaf l t) s u)
  | comp (k bs t) : (∀ b ∈ bs, ScalesOnLeaves b) → ScalesOnLeaves (.comp k bs t)

/-- No chain (or kron) inside the block is empty. -/
inductive NonEmptyProducts : Block L → Prop
  | leaf (l t) : NonEmptyProducts (.leaf l t)
  | scale (b s t) : NonEmptyProducts b → NonEmptyProducts (.scale b s t)
  | comp (k bs t) : (k ≠ .add → bs ≠ []) → (∀ b ∈ bs, NonEmptyProducts b) → NonEmptyProducts (.comp k bs t)

end Spec

namespace Block

theorem sem_setTag (S : LeafSem L n) (ρ : Env) (t) (b : Block L) : sem S ρ (setTag t b) = sem S ρ b := by
  cases b with
  | leaf l u => simp [setTag, sem]
  | scale b s u => simp [setTag, sem]
  | comp k bs u => cases k <;> simp [setTag, sem]

theorem qubits_setTag (supp : L → List ℕ) (t) (b : Block L) : qubits supp (setTag t b) = qubits supp b := by
  cases b <;> simp [setTag, qubits]

theorem wellFormed_setTag (supp : L → List ℕ) (t) (b : Block L) :
    WellFormed supp (setTag t b) ↔ WellFormed supp b := by
  cases b with
  | leaf l u => simp [setTag, WellFormed]
  | scale b s u => simp [setTag, WellFormed]
  | comp k bs u => cases k <;> simp [setTag, WellFormed]

theorem scalesOnLeaves_setTag {t} {b : Block L} (h : ScalesOnLeaves b) : ScalesOnLeaves (setTag t b) := by
  cases h with
  | leaf l u => exact .leaf _ _
  | scale l u s v => exact .scale _ _ _ _
  | comp k bs u h => exact .comp _ _ _ h

theorem scaleAll_eq (sc : Option Expr) (bs : List (Block L)) : scaleAll sc bs = bs.map (scaleOnly sc) := by
  induction bs with
  | nil => simp [scaleAll]
  | cons b bs ih => simp [scaleAll, ih]

theorem scaleOnly_chain (sc : Option Expr) (k : CKind) (hk : k ≠ .add) (bs : List (Block L)) (t) :
    scaleOnly sc (.comp k bs t) = .comp k (match bs with
      | [] => [] | b :: bs => scaleOnly sc b :: bs.map (scaleOnly none)) t := by
  cases k <;> first | exact absurd rfl hk | skip
  all_goals
    cases bs with
    | nil => simp [scaleOnly, scaleFirst]
    | cons b bs => simp [scaleOnly, scaleFirst, scaleAll_eq]

theorem scaleOnly_add (sc : Option Expr) (bs : List (Block L)) (t) :
    scaleOnly sc (.comp .add bs t) = .comp .add (bs.map (scaleOnly sc)) t := by
  rw [scaleOnly, scaleAll_eq]

/-- `scale * scale2`, if there is a scale. -/
def combine (sc : Option Expr) (s2 : Expr) : Expr :=
  match sc with
  | none => s2
  | some s => .mul s s2

theorem scaleOnly_scale (sc : Option Expr) (b : Block L) (s t) :
    scaleOnly sc (.scale b s t) = setTag t (scaleOnly (some (combine sc s)) b) := by
  cases sc <;> simp [scaleOnly, combine]

/-- The value of an optional scale. -/
noncomputable def scaleVal (ρ : Env) : Option Expr → ℂ
  | none => 1
  | some s => eval ρ s

theorem sem_prod (S : LeafSem L n) (ρ : Env) (k : CKind) (hk : k ≠ .add) (bs : List (Block L)) (t) :
    sem S ρ (.comp k bs t) = opProd (bs.map (sem S ρ)) := by
  cases k
  · exact sem_chain S ρ bs t
  · exact sem_kron S ρ bs t
  · exact absurd rfl hk

theorem sem_scaleOnly (S : LeafSem L n) (ρ : Env) (b : Block L) (sc : Option Expr)
    (h : sc = none ∨ NonEmptyProducts b) (h' : NonEmptyProducts b) :
    sem S ρ (scaleOnly sc b) = scaleVal ρ sc • sem S ρ b := by
  induction b using Block.induction generalizing sc with
  | leaf l t => cases sc <;> simp [scaleOnly, scaleVal, sem]
  | scale b s t ih =>
    cases h' with
    | scale _ _ _ hb =>
      rw [scaleOnly_scale, sem_setTag, ih _ (Or.inr hb) hb, sem_scale, smul_smul]
      cases sc <;> simp [scaleVal, eval, combine]
  | comp k bs t ih =>
    cases h' with
    | comp _ _ _ hne hbs =>
      by_cases hk : k = .add
      · subst hk
        rw [scaleOnly_add, sem_add, sem_add, List.map_map, List.smul_sum, List.map_map]
        congr 1
        apply List.map_congr_left
        intro b hb
        exact ih b hb sc (Or.inr (hbs b hb)) (hbs b hb)
      · rw [scaleOnly_chain sc k hk, sem_prod S ρ k hk, sem_prod S ρ k hk]
        cases bs with
        | nil => exact absurd rfl (hne hk)
        | cons b bs =>
          have hrest : (bs.map (scaleOnly none)).map (sem S ρ) = bs.map (sem S ρ) := by
            rw [List.map_map]
            apply List.map_congr_left
            intro c hc
            have := ih c (by simp [hc]) none (Or.inl rfl) (hbs c (by simp [hc]))
            simpa [scaleVal] using this
          simp only [List.map_cons, hrest]
          rw [ih b (by simp) sc (Or.inr (hbs b (by simp))) (hbs b (by simp)), opProd_smul]

theorem qubits_scaleOnly (supp : L → List ℕ) (b : Block L) (sc : Option Expr) :
    qubits supp (scaleOnly sc b) = qubits supp b := by
  induction b using Block.induction generalizing sc with
  | leaf l t => cases sc <;> simp [scaleOnly, qubits]
  | scale b s t ih => rw [scaleOnly_scale, qubits_setTag, ih, qubits_scale]
  | comp k bs t ih =>
    ext q
    by_cases hk : k = .add
    · subst hk
      rw [scaleOnly_add, mem_qubits_comp, mem_qubits_comp]
      simp only [List.mem_map, exists_exists_and_eq_and]
      exact exists_congr fun b => and_congr_right fun hb => by rw [ih b hb]
    · rw [scaleOnly_chain sc k hk, mem_qubits_comp, mem_qubits_comp]
      cases bs with
      | nil => simp
      | cons b bs =>
        simp only [List.mem_cons, List.mem_map, exists_eq_or_imp, exists_exists_and_eq_and]
        rw [ih b (by simp)]
        exact or_congr Iff.rfl (exists_congr fun c => and_congr_right fun hc => by rw [ih c (by simp [hc])])

end Block

open Block

/-- **C10** (partial: products inside the block must not be empty, see the counterexample): the operator is
unchanged. -/
theorem C10_scale_pushed_same_operator_partial (S : LeafSem L n) (ρ : Env) (b : Block L)
    (h : NonEmptyProducts b) : sem S ρ (scaleOnly none b) = sem S ρ b := by
  rw [sem_scaleOnly S ρ b none (Or.inl rfl) h]; simp [scaleVal]

/-- **C10**: a scale factor on an empty chain is lost. -/
theorem C10_counterexample_empty_chain (S : LeafSem L n) (ρ : Env) :
    sem S ρ (scaleOnly none (.scale (.comp .chain [] none) (.num 2 0) none)) ≠
      sem S ρ (.scale (.comp .chain [] none) (.num 2 0) none) := by
  have h1 : sem S ρ (scaleOnly none (.scale (.comp .chain [] none) (.num 2 0) none)) = 1 := by
    simp [scaleOnly, scaleFirst, setTag, sem, semList, opProd]
  have h2 : sem S ρ (.scale (.comp .chain [] none) (.num 2 0) none) = (2 : ℂ) • 1 := by
    simp [sem, semList, opProd, eval]
    congr 1
  rw [h1, h2]
  intro h
  have := congrFun (congrFun h (fun _ => false)) (fun _ => false)
  simp at this

/-- **C10**: in the result every scale factor is applied to a primitive block. -/
theorem C10_scales_on_leaves (b : Block L) (sc : Option Expr) : ScalesOnLeaves (scaleOnly sc b) := by
  induction b using Block.induction generalizing sc with
  | leaf l t =>
    cases sc
    · rw [scaleOnly]; exact .leaf l t
    · rw [scaleOnly]; exact .scale _ _ _ _
  | scale b s t ih => rw [scaleOnly_scale]; exact scalesOnLeaves_setTag (ih _)
  | comp k bs t ih =>
    by_cases hk : k = .add
    · subst hk
      rw [scaleOnly_add]
      apply ScalesOnLeaves.comp
      intro c hc
      obtain ⟨b, hb, rfl⟩ := List.mem_map.1 hc
      exact ih b hb sc
    · rw [scaleOnly_chain sc k hk]
      apply ScalesOnLeaves.comp
      cases bs with
      | nil => simp
      | cons b bs =>
        intro c hc
        simp only [List.mem_cons, List.mem_map] at hc
        rcases hc with rfl | ⟨c, hc, rfl⟩
        · exact ih b (by simp) sc
        · exact ih c (by simp [hc]) none

/-- **C10**: the krons of the result pass the check of `KronBlock`. -/
theorem C10_wellFormed (supp : L → List ℕ) (b : Block L) (sc : Option Expr) (h : WellFormed supp b) :
    WellFormed supp (scaleOnly sc b) := by
  induction b using Block.induction generalizing sc with
  | leaf l t => cases sc <;> simp [scaleOnly, WellFormed]
  | scale b s t ih => rw [scaleOnly_scale, wellFormed_setTag]; exact ih _ (wellFormed_scale.1 h)
  | comp k bs t ih =>
    have hp := wellFormed_comp_parts h
    cases k with
    | add =>
      rw [scaleOnly_add, wellFormed_add]
      intro c hc
      obtain ⟨b, hb, rfl⟩ := List.mem_map.1 hc
      exact ih b hb sc (hp b hb)
    | chain =>
      rw [scaleOnly_chain sc _ (by simp), wellFormed_chain]
      cases bs with
      | nil => simp
      | cons b bs =>
        intro c hc
        simp only [List.mem_cons, List.mem_map] at hc
        rcases hc with rfl | ⟨c, hc, rfl⟩
        · exact ih b (by simp) sc (hp b (by simp))
        · exact ih c (by simp [hc]) none (hp c (by simp [hc]))
    | kron =>
      rw [scaleOnly_chain sc _ (by simp), wellFormed_kron]
      obtain ⟨hne, hpw, -⟩ := wellFormed_kron.1 h
      cases bs with
      | nil => exact absurd rfl hne
      | cons b bs =>
        refine ⟨by simp, ?_, ?_⟩
        · rw [List.pairwise_cons] at hpw ⊢
          refine ⟨?_, ?_⟩
          · intro c hc
            obtain ⟨d, hd, rfl⟩ := List.mem_map.1 hc
            rw [qubits_scaleOnly, qubits_scaleOnly]; exact hpw.1 d hd
          · rw [List.pairwise_map]
            exact hpw.2.imp fun {a b} hab => by rwa [qubits_scaleOnly, qubits_scaleOnly]
        · intro c hc
          simp only [List.mem_cons, List.mem_map] at hc
          rcases hc with rfl | ⟨c, hc, rfl⟩
          · exact ih b (by simp) sc (hp b (by simp))
          · exact ih c (by simp [hc]) none (hp c (by simp [hc]))

/-- A scaled chain of two leaves satisfies the hypothesis; only the first leaf is scaled. -/
example : NonEmptyProducts (.scale (.comp .chain [.leaf 0 none, .leaf 1 none] none) (.num 2 0) none : Block ℕ) ∧
    scaleOnly none (.scale (.comp .chain [.leaf 0 none, .leaf 1 none] none) (.num 2 0) none : Block ℕ) =
      .comp .chain [.scale (.leaf 0 none) (.num 2 0) none, .leaf 1 none] none := by
  constructor
  · refine .scale _ _ _ (.comp _ _ _ (by simp) ?_)
    simp [NonEmptyProducts.leaf]
  · simp [scaleOnly, scaleFirst, scaleAll, setTag]

/-! ## C13 -/

namespace Block

theorem unrollAll_eq (bs : List (Block L)) : unrollAll bs = bs.flatMap unroll := by
  induction bs with
  | nil => simp [unrollAll]
  | cons b bs ih => simp [unrollAll, ih]

/-- Sum of a list of weighted terms. -/
noncomputable def weighted (S : LeafSem L n) (ρ : Env) (ts : List (Block L × Expr)) : Oper n :=
  (ts.map fun t => eval ρ t.2 • sem S ρ t.1).sum

theorem weighted_append (S : LeafSem L n) (ρ : Env) (a b : List (Block L × Expr)) :
    weighted S ρ (a ++ b) = weighted S ρ a + weighted S ρ b := by simp [weighted]

theorem weighted_flatMap (S : LeafSem L n) (ρ : Env) (bs : List (Block L))
    (h : ∀ b ∈ bs, weighted S ρ (unroll b) = sem S ρ b) :
    weighted S ρ (bs.flatMap unroll) = (bs.map (sem S ρ)).sum := by
  induction bs with
  | nil => simp [weighted]
  | cons b bs ih =>
    rw [List.flatMap_cons, weighted_append, h b (by simp), ih fun c hc => h c (by simp [hc])]
    simp

theorem eval_one (ρ : Env) : eval ρ (.num 1 0) = 1 := by
  simp [eval]
  rfl

theorem unroll_scale (b : Block L) (s t) : unroll (.scale b s t) =
    match b with
    | .comp .add bs _ => (bs.flatMap unroll).map fun bm => (bm.1, .mul s bm.2)
    | b => [(b, s)] := by
  cases b with
  | leaf l u => simp [unroll]
  | scale b u v => simp [unroll]
  | comp k bs u => cases k <;> simp [unroll, unrollAll_eq]

end Block

/-- **C13**: the weighted sum of the terms is the operator of the block, for any number of qubits and any parameter
values. -/
theorem C13_unroll_exact (S : LeafSem L n) (ρ : Env) (b : Block L) :
    ((unroll b).map fun t => eval ρ t.2 • sem S ρ t.1).sum = sem S ρ b := by
  change weighted S ρ (unroll b) = _
  induction b using Block.induction with
  | leaf l t => simp [unroll, weighted, eval_one]
  | scale b s t ih =>
    rw [unroll_scale, sem_scale]
    split
    · next bs u =>
      rw [← ih, unroll, unrollAll_eq]
      simp only [weighted, List.map_map, List.smul_sum]
      congr 1
      apply List.map_congr_left
      intro p _
      simp [eval, smul_smul]
    · simp [weighted]
  | comp k bs t ih =>
    cases k with
    | chain => simp [unroll, weighted, eval_one]
    | kron => simp [unroll, weighted, eval_one]
    | add => rw [unroll, unrollAll_eq, sem_add]; exact weighted_flatMap S ρ bs ih

/-- **C13**: no term is a sum. -/
theorem C13_unroll_no_sum (b : Block L) : ∀ t ∈ unroll b, ∀ bs u, t.1 ≠ .comp .add bs u := by
  induction b using Block.induction with
  | leaf l t => simp [unroll]
  | scale b s t ih =>
    rw [unroll_scale]
    split
    · next bs u =>
      rw [unroll, unrollAll_eq] at ih
      intro p hp cs v
      obtain ⟨q, hq, rfl⟩ := List.mem_map.1 hp
      exact ih q hq cs v
    · next b hb =>
      intro p hp cs v e
      simp only [List.mem_singleton] at hp
      subst hp
      exact hb cs v e
  | comp k bs t ih =>
    cases k with
    | chain => simp [unroll]
    | kron => simp [unroll]
    | add =>
      rw [unroll, unrollAll_eq]
      intro p hp
      obtain ⟨b, hb, hp⟩ := List.mem_flatMap.1 hp
      exact ih b hb p hp

/-- **C13**: a term can still be a scaled sum, if two `ScaleBlock` objects are nested (which `*` never builds). -/
theorem C13_counterexample_nested_scale : ∃ b : Block ℕ, ∃ t ∈ unroll b, ∃ bs s u v,
    t.1 = .scale (.comp .add bs u) s v ∧ bs.length > 1 :=
  ⟨.scale (.scale (.comp .add [.leaf 0 none, .leaf 1 none] none) (.num 2 0) none) (.num 3 0) none, by
    simp [unroll]⟩

/-- `2 * (x + 3 * y)`. -/
example : unroll (.scale (.comp .add [.leaf 0 none, .scale (.leaf 1 none) (.num 3 0) none] none) (.num 2 0) none :
    Block ℕ) = [(.leaf 0 none, .mul (.num 2 0) (.num 1 0)), (.leaf 1 none, .mul (.num 2 0) (.num 3 0))] := by
  simp [unroll, unrollAll]

/-! ## C17 -/

/-- **C17**: no passes. -/
theorem C17_transpile_nil {α : Type} (x : α) : transpile [] x = .ok x := rfl

/-- **C17**: passes are applied from the last to the first: the first pass gets the result of all others. -/
theorem C17_transpile_cons {α : Type} (f : α → Except PyErr α) (fs : List (α → Except PyErr α)) (x : α) :
    transpile (f :: fs) x = transpile fs x >>= f := by
  simp [transpile, List.foldlM_append]

/-- **C17**: the last pass sees the input. -/
theorem C17_transpile_last {α : Type} (f : α → Except PyErr α) (fs : List (α → Except PyErr α)) (x : α) :
    transpile (fs ++ [f]) x = f x >>= transpile fs := by
  simp only [transpile, List.reverse_append, List.reverse_cons, List.reverse_nil, List.nil_append,
    List.cons_append, List.foldlM_cons]
  rfl

/-- **C17**: concatenated pass lists compose. -/
theorem C17_transpile_append {α : Type} (fs gs : List (α → Except PyErr α)) (x : α) :
    transpile (fs ++ gs) x = transpile gs x >>= transpile fs := by
  simp only [transpile, List.reverse_append, List.foldlM_append]
  rfl

/-- **C17**: for passes which never fail the pipeline is function composition. -/
theorem C17_transpile_total {α : Type} (fs : List (α → α)) (x : α) :
    transpile (fs.map fun f a => .ok (f a)) x = .ok (fs.foldr (fun f acc => f acc) x) := by
  induction fs with
  | nil => rfl
  | cons f fs ih => rw [List.map_cons, C17_transpile_cons, ih]; rfl

/-- **C17**: anything preserved by every pass is preserved by the pipeline; with `R` = "has the same operator" the
pipeline preserves the operator. -/
theorem C17_transpile_preserves {α : Type} (R : α → α → Prop) (hrefl : ∀ a, R a a)
    (htrans : ∀ a b c, R a b → R b c → R a c) (fs : List (α → Except PyErr α))
    (hfs : ∀ f ∈ fs, ∀ a b, f a = .ok b → R a b) (x y : α) (h : transpile fs x = .ok y) : R x y := by
  induction fs generalizing y with
  | nil =>
    have : x = y := by simpa [C17_transpile_nil] using h
    exact this ▸ hrefl x
  | cons f fs ih =>
    rw [C17_transpile_cons] at h
    cases hz : transpile fs x with
    | error e => rw [hz] at h; cases h
    | ok z =>
      rw [hz] at h
      exact htrans x z y (ih (fun g hg => hfs g (by simp [hg])) z hz) (hfs f (by simp) z y h)

/-- **C17**: flattening and pushing scales in a pipeline. -/
theorem C17_pipeline_same_operator (S : LeafSem L n) (ρ : Env) (fs : List (Block L → Except PyErr (Block L)))
    (hfs : ∀ f ∈ fs, ∀ a b, f a = .ok b → sem S ρ b = sem S ρ a) (x y : Block L)
    (h : transpile fs x = .ok y) : sem S ρ y = sem S ρ x :=
  C17_transpile_preserves (fun a b => sem S ρ b = sem S ρ a) (fun _ => rfl) (fun _ _ _ h1 h2 => h2.trans h1)
    fs hfs x y h

/-- The order matters and is right to left. -/
example : transpile [fun x : ℕ => .ok (x + 1), fun x => .ok (x * 10)] 3 = .ok 31 := rfl

/-! ## C22 -/

namespace Spec

/-- The sub-block at a path of part indices through composite blocks. -/
def subAt : Block L → List ℕ → Option (Block L)
  | b, [] => some b
  | .comp _ bs _, i :: p =>
    match bs[i]? with
    | some c => subAt c p
    | none => none
  | _, _ :: _ => none

end Spec

namespace Block

/-- The sub-block at a path into a list of blocks. -/
def subAtList (bs : List (Block L)) : List ℕ → Option (Block L)
  | [] => none
  | i :: p => match bs[i]? with
    | some c => subAt c p
    | none => none

theorem subAt_comp (k : CKind) (bs : List (Block L)) (t) (p : List ℕ) :
    subAt (.comp k bs t) p = if p = [] then some (.comp k bs t) else subAtList bs p := by
  cases p with
  | nil => simp [subAt]
  | cons i p => simp [subAt, subAtList]

/-- Path into the tail of a list seen from the whole list. -/
def shift : List ℕ → List ℕ
  | [] => []
  | i :: p => (i + 1) :: p

theorem subAtList_shift (b : Block L) (bs : List (Block L)) (p : List ℕ) :
    subAtList (b :: bs) (shift p) = subAtList bs p := by
  cases p <;> simp [shift, subAtList]

/-- `ps` lists the paths to blocks with the tag in depth-first order, `cs` are the blocks. -/
def TagPaths (sub : List ℕ → Option (Block L)) (tag : String) (ps : List (List ℕ)) (cs : List (Block L)) : Prop :=
  ps.Pairwise (List.Lex (· < ·)) ∧ (∀ p, p ∈ ps ↔ ∃ c, sub p = some c ∧ c.tag = some tag) ∧
    ps.map sub = cs.map some

theorem tagPaths_list (tag : String) (bs : List (Block L))
    (h : ∀ b ∈ bs, ∃ ps, TagPaths (subAt b) tag ps (byTag tag b)) :
    ∃ ps, TagPaths (subAtList bs) tag ps (byTagAll tag bs) := by
  induction bs with
  | nil =>
    refine ⟨[], List.Pairwise.nil, fun p => ?_, by simp [byTagAll]⟩
    cases p <;> simp [subAtList]
  | cons b bs ih =>
    obtain ⟨ps, h1, h2, h3⟩ := h b (by simp)
    obtain ⟨qs, g1, g2, g3⟩ := ih fun c hc => h c (by simp [hc])
    have hq : ∀ q ∈ qs, ∃ i p, q = i :: p := by
      intro q hq
      obtain ⟨c, hc, _⟩ := (g2 q).1 hq
      cases q with
      | nil => simp [subAtList] at hc
      | cons i p => exact ⟨i, p, rfl⟩
    refine ⟨ps.map (0 :: ·) ++ qs.map shift, ?_, ?_, ?_⟩
    · rw [List.pairwise_append]
      refine ⟨?_, ?_, ?_⟩
      · rw [List.pairwise_map]
        exact h1.imp fun hab => List.Lex.cons hab
      · rw [List.pairwise_map]
        apply List.Pairwise.imp_of_mem _ g1
        intro a b ha hb hab
        obtain ⟨i, p, rfl⟩ := hq a ha
        obtain ⟨j, q, rfl⟩ := hq b hb
        cases hab with
        | cons h => exact List.Lex.cons h
        | rel h => exact List.Lex.rel (by omega)
      · intro a ha b hb
        obtain ⟨p, _, rfl⟩ := List.mem_map.1 ha
        obtain ⟨q, hq', rfl⟩ := List.mem_map.1 hb
        obtain ⟨j, q, rfl⟩ := hq q hq'
        exact List.Lex.rel (by omega)
    · intro p
      rw [List.mem_append, List.mem_map, List.mem_map]
      constructor
      · rintro (⟨q, hq', rfl⟩ | ⟨q, hq', rfl⟩)
        · simpa [subAtList] using (h2 q).1 hq'
        · rw [subAtList_shift]; exact (g2 q).1 hq'
      · rintro ⟨c, hc, ht⟩
        cases p with
        | nil => simp [subAtList] at hc
        | cons i p =>
          cases i with
          | zero =>
            left
            exact ⟨p, (h2 p).2 ⟨c, by simpa [subAtList] using hc, ht⟩, rfl⟩
          | succ i =>
            right
            exact ⟨i :: p, (g2 _).2 ⟨c, by simpa [subAtList] using hc, ht⟩, rfl⟩
    · have e1 : (ps.map (0 :: ·)).map (subAtList (b :: bs)) = ps.map (subAt b) := by
        rw [List.map_map]
        exact List.map_congr_left fun p _ => by simp [subAtList]
      have e2 : (qs.map shift).map (subAtList (b :: bs)) = qs.map (subAtList bs) := by
        rw [List.map_map]
        exact List.map_congr_left fun p _ => subAtList_shift b bs p
      rw [List.map_append, e1, e2, byTagAll, List.map_append, h3, g3]

end Block

/-- **C22**: there is a list of all paths (through composite blocks) leading to a block with the tag, in depth-first
order and each path once, and the result is the list of blocks at these paths. -/
theorem C22_blocks_by_tag (tag : String) (b : Block L) :
    ∃ ps : List (List ℕ), ps.Pairwise (List.Lex (· < ·)) ∧
      (∀ p, p ∈ ps ↔ ∃ c, subAt b p = some c ∧ c.tag = some tag) ∧
      ps.map (subAt b) = (byTag tag b).map some := by
  change ∃ ps, TagPaths (subAt b) tag ps (byTag tag b)
  have hnc : ∀ b : Block L, (∀ i p, subAt b (i :: p) = none) →
      byTag tag b = (if b.tag = some tag then [b] else []) →
      ∃ ps, TagPaths (subAt b) tag ps (byTag tag b) := by
    intro b h0 hb
    rw [hb]
    by_cases ht : b.tag = some tag
    · refine ⟨[[]], by simp, fun p => ?_, by simp [ht, subAt]⟩
      cases p with
      | nil => simp [subAt, ht]
      | cons i p => simp [h0]
    · refine ⟨[], by simp, fun p => ?_, by simp [ht]⟩
      cases p with
      | nil => simp [subAt, ht]
      | cons i p => simp [h0]
  induction b using Block.induction with
  | leaf l t => exact hnc _ (by simp [subAt]) (by rw [byTag, Block.tag])
  | scale b s t _ => exact hnc _ (by simp [subAt]) (by rw [byTag, Block.tag])
  | comp k bs t ih =>
    obtain ⟨ps, h1, h2, h3⟩ := tagPaths_list tag bs ih
    have hne : [] ∉ ps := fun h => by
      obtain ⟨c, hc, _⟩ := (h2 []).1 h
      simp [subAtList] at hc
    have hmap : ps.map (subAt (.comp k bs t)) = ps.map (subAtList bs) := by
      apply List.map_congr_left
      intro p hp
      rw [subAt_comp, if_neg]
      rintro rfl; exact hne hp
    by_cases ht : t = some tag
    · refine ⟨[] :: ps, ?_, ?_, ?_⟩
      · rw [List.pairwise_cons]
        refine ⟨fun p hp => ?_, h1⟩
        cases p with
        | nil => exact absurd hp hne
        | cons i p => exact List.Lex.nil
      · intro p
        rw [subAt_comp]
        cases p with
        | nil => simp [Block.tag, ht]
        | cons i p => simpa using h2 (i :: p)
      · rw [List.map_cons, hmap, h3, byTag, if_pos ht]; simp [subAt]
    · refine ⟨ps, h1, ?_, ?_⟩
      · intro p
        rw [subAt_comp]
        cases p with
        | nil => simp [Block.tag, ht, hne]
        | cons i p => simpa using h2 (i :: p)
      · rw [hmap, h3, byTag, if_neg ht]; simp

/-- A tag used twice, once at the root. -/
example : byTag "t" (.comp .chain [.leaf 0 (some "t"), .scale (.leaf 1 (some "t")) .pi none] (some "t") : Block ℕ) =
    [.comp .chain [.leaf 0 (some "t"), .scale (.leaf 1 (some "t")) .pi none] (some "t"), .leaf 0 (some "t")] := by
  simp [byTag, byTagAll]

end Qadence
