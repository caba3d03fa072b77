import Verif.Proofs.Tensor
import Verif.Props.Dagger

/-! # Kronecker products with identities -/

namespace Qadence

open Spec

variable {n : ℕ}

/-- The entries of `T` are given by a function of the bits of the qubits `os`. -/
def Rep (os : List ℕ) (T : TMat) (g : (ℕ → Bool) → (ℕ → Bool) → ℂ) : Prop :=
  T.dim = 2 ^ os.length ∧ ∀ u v, T.e (index os u) (index os v) = g u v

/-- 1 if the bits of the given qubits agree. -/
def agree (l : List ℕ) (u v : ℕ → Bool) : ℂ := if ∀ q ∈ l, u q = v q then 1 else 0

theorem agree_append (l m : List ℕ) (u v : ℕ → Bool) : agree (l ++ m) u v = agree l u v * agree m u v := by
  unfold agree
  by_cases h1 : ∀ q ∈ l, u q = v q <;> by_cases h2 : ∀ q ∈ m, u q = v q
  · rw [if_pos h1, if_pos h2, if_pos, mul_one]
    intro q hq
    exact (List.mem_append.1 hq).elim (h1 q) (h2 q)
  · rw [if_neg h2, if_neg, mul_zero]
    exact fun h => h2 fun q hq => h q (List.mem_append.2 (Or.inr hq))
  · rw [if_neg h1, if_neg, zero_mul]
    exact fun h => h1 fun q hq => h q (List.mem_append.2 (Or.inl hq))
  · rw [if_neg h2, if_neg, mul_zero]
    exact fun h => h2 fun q hq => h q (List.mem_append.2 (Or.inr hq))

theorem agree_nil (u v : ℕ → Bool) : agree [] u v = 1 := by simp [agree]

theorem Rep.kron {os os' : List ℕ} {A B : TMat} {g g' : (ℕ → Bool) → (ℕ → Bool) → ℂ} (hA : Rep os A g)
    (hB : Rep os' B g') : Rep (os ++ os') (A.kron B) fun u v => g u v * g' u v := by
  refine ⟨?_, fun u v => ?_⟩
  · rw [TMat.kron, hA.1, hB.1, List.length_append, pow_add]
  · have hd : ∀ u, index (os ++ os') u / 2 ^ os'.length = index os u := by
      intro u
      rw [index_append, Nat.mul_comm, Nat.mul_add_div (Nat.two_pow_pos _), Nat.div_eq_of_lt (index_lt _ _), add_zero]
    have hm : ∀ u, index (os ++ os') u % 2 ^ os'.length = index os' u := by
      intro u
      rw [index_append, Nat.mul_comm, Nat.mul_add_mod, Nat.mod_eq_of_lt (index_lt _ _)]
    simp only [TMat.kron, hB.1, hd, hm, hA.2, hB.2]

theorem imat_e {i j : ℕ} (hi : i < 2) (hj : j < 2) : IMAT.e i j = if i = j then 1 else 0 := by
  interval_cases i <;> interval_cases j <;> simp [IMAT, TMat.ofRows]

theorem rep_imat (q : ℕ) : Rep [q] IMAT (agree [q]) := by
  refine ⟨rfl, fun u v => ?_⟩
  rw [index_singleton, index_singleton, imat_e (Bool.toNat_lt _) (Bool.toNat_lt _), agree]
  simp only [List.mem_singleton, forall_eq]
  generalize u q = a
  generalize v q = b
  cases a <;> cases b <;> simp

/-- The factor order. -/
def extend (en : Endian) (os l : List ℕ) : List ℕ :=
  match en with
  | .big => os ++ l
  | .little => l.reverse ++ os

/-- The body of the loop of `fillIdentities`. -/
noncomputable def fillStep (en : Endian) (B : TMat) (q0 : ℕ) (qs : List ℕ) (mat : TMat) (i : ℕ) : TMat :=
  let kr (mat other : TMat) : TMat := match en with
    | .little => other.kron mat
    | .big => mat.kron other
  if i = q0 then kr mat B else if i ∉ qs then kr mat IMAT else mat

theorem fill_foldl_pad (en : Endian) (B : TMat) (q0 : ℕ) (qs l : List ℕ) (hq0 : q0 ∈ qs) (hl : ∀ q ∈ l, q ∉ qs)
    (os : List ℕ) (M : TMat) (g : (ℕ → Bool) → (ℕ → Bool) → ℂ) (h : Rep os M g) :
    Rep (extend en os l) (l.foldl (fillStep en B q0 qs) M) fun u v => g u v * agree l u v := by
  induction l generalizing os M g with
  | nil =>
    simp only [agree_nil, mul_one, List.foldl_nil]
    cases en <;> simpa [extend] using h
  | cons i l ih =>
    have hi : i ∉ qs := hl i List.mem_cons_self
    have hne : i ≠ q0 := fun e => hi (e ▸ hq0)
    have hag : ∀ u v, agree (i :: l) u v = agree [i] u v * agree l u v := fun u v =>
      agree_append [i] l u v
    rw [List.foldl_cons]
    cases en with
    | big =>
      have hs : fillStep .big B q0 qs M i = M.kron IMAT := by simp [fillStep, hne, hi]
      have := ih (fun q hq => hl q (List.mem_cons_of_mem _ hq)) (os ++ [i]) (M.kron IMAT) _ (h.kron (rep_imat i))
      rw [hs]
      simp only [extend, List.append_assoc, List.singleton_append, hag, mul_assoc] at this ⊢
      exact this
    | little =>
      have hs : fillStep .little B q0 qs M i = IMAT.kron M := by simp [fillStep, hne, hi]
      have := ih (fun q hq => hl q (List.mem_cons_of_mem _ hq)) ([i] ++ os) (IMAT.kron M) _ ((rep_imat i).kron h)
      rw [hs]
      simp only [extend, List.append_assoc, List.reverse_cons, hag] at this ⊢
      have e : (fun u v => g u v * (agree [i] u v * agree l u v)) = fun u v => agree [i] u v * g u v * agree l u v := by
        funext u v; ring
      rw [e]
      exact this

theorem fill_foldl_skip (en : Endian) (B : TMat) (q0 : ℕ) (qs l : List ℕ) (hq0 : q0 ∉ l) (hl : ∀ q ∈ l, q ∈ qs)
    (M : TMat) : l.foldl (fillStep en B q0 qs) M = M := by
  induction l generalizing M with
  | nil => rfl
  | cons i l ih =>
    have h1 : i ≠ q0 := fun e => hq0 (e ▸ List.mem_cons_self)
    have h2 : i ∈ qs := hl i List.mem_cons_self
    have hs : fillStep en B q0 qs M i = M := by simp [fillStep, h1, h2]
    rw [List.foldl_cons, hs]
    exact ih (fun h => hq0 (List.mem_cons_of_mem _ h)) (fun q hq => hl q (List.mem_cons_of_mem _ hq)) M

theorem fillIdentities_eq (en : Endian) (B : TMat) (qs0 fs0 : List ℕ) {q0 f0 : ℕ} {qs fs : List ℕ}
    (hqs : qs0.insertionSort (· ≤ ·) = q0 :: qs) (hfs : fs0.insertionSort (· ≤ ·) = f0 :: fs) :
    fillIdentities en B qs0 fs0 =
      .ok (fs.foldl (fillStep en B q0 (q0 :: qs)) (if q0 ≠ f0 then IMAT else B)) := by
  simp only [fillIdentities, hqs, hfs]
  rfl

/-- The order of the qubits in the result of `fillIdentities`. -/
def fillOrder (en : Endian) (pre qs post : List ℕ) : List ℕ :=
  match en with
  | .big => pre ++ qs ++ post
  | .little => post.reverse ++ qs ++ pre.reverse

theorem fill_rep (en : Endian) (B : TMat) (qs0 fs0 pre qs post : List ℕ) (hne : qs ≠ [])
    (hqs : qs0.insertionSort (· ≤ ·) = qs) (hfs : fs0.insertionSort (· ≤ ·) = pre ++ qs ++ post)
    (hnd : (pre ++ qs ++ post).Nodup) (g : (ℕ → Bool) → (ℕ → Bool) → ℂ) (hB : Rep qs B g) :
    ∃ T, fillIdentities en B qs0 fs0 = .ok T ∧
      Rep (fillOrder en pre qs post) T fun u v => agree pre u v * g u v * agree post u v := by
  obtain ⟨q0, qt, rfl⟩ := List.exists_cons_of_ne_nil hne
  obtain ⟨hnd1, hndp, hdis2⟩ := List.nodup_append.1 hnd
  obtain ⟨hndpre, hndq, hdis1⟩ := List.nodup_append.1 hnd1
  have hpost : ∀ q ∈ post, q ∉ q0 :: qt := fun q hq h => hdis2 q (List.mem_append.2 (Or.inr h)) q hq rfl
  have hpre : ∀ q ∈ pre, q ∉ q0 :: qt := fun q hq h => hdis1 q hq q h rfl
  have hq0 : q0 ∉ qt := (List.nodup_cons.1 hndq).1
  have hqt : ∀ q ∈ qt, q ∈ q0 :: qt := fun q hq => List.mem_cons_of_mem _ hq
  cases pre with
  | nil =>
    simp only [List.nil_append, List.cons_append] at hfs
    refine ⟨_, fillIdentities_eq en B qs0 fs0 hqs hfs, ?_⟩
    rw [if_neg (fun h => h rfl), List.foldl_append, fill_foldl_skip en B q0 _ qt hq0 hqt]
    have := fill_foldl_pad en B q0 (q0 :: qt) post List.mem_cons_self hpost _ B g hB
    simp only [agree_nil, one_mul]
    cases en <;> simpa [fillOrder, extend] using this
  | cons f0 pre =>
    simp only [List.cons_append] at hfs
    refine ⟨_, fillIdentities_eq en B qs0 fs0 hqs hfs, ?_⟩
    have hf0 : q0 ≠ f0 := fun e => hpre f0 List.mem_cons_self (e ▸ List.mem_cons_self)
    rw [if_pos hf0, List.foldl_append, List.foldl_append, List.foldl_cons, fill_foldl_skip en B q0 _ qt hq0 hqt]
    have h1 := fill_foldl_pad en B q0 (q0 :: qt) pre List.mem_cons_self
      (fun q hq => hpre q (List.mem_cons_of_mem _ hq)) _ IMAT _ (rep_imat f0)
    have hag : (fun u v => agree [f0] u v * agree pre u v) = agree (f0 :: pre) := by
      funext u v
      exact (agree_append [f0] pre u v).symm
    rw [hag] at h1
    generalize List.foldl (fillStep en B q0 (q0 :: qt)) IMAT pre = M at h1 ⊢
    cases en with
    | big =>
      have hs : fillStep .big B q0 (q0 :: qt) M q0 = M.kron B := by simp [fillStep]
      rw [hs]
      have h2 := fill_foldl_pad .big B q0 (q0 :: qt) post List.mem_cons_self hpost _ _ _ (h1.kron hB)
      simpa [fillOrder, extend] using h2
    | little =>
      have hs : fillStep .little B q0 (q0 :: qt) M q0 = B.kron M := by simp [fillStep]
      rw [hs]
      have h2 := fill_foldl_pad .little B q0 (q0 :: qt) post List.mem_cons_self hpost _ _ _ (hB.kron h1)
      have e : (fun u v => agree (f0 :: pre) u v * g u v * agree post u v) =
          fun u v => g u v * agree (f0 :: pre) u v * agree post u v := by
        funext u v; ring
      rw [e]
      simpa [fillOrder, extend] using h2

theorem mem_fillOrder (en : Endian) (pre qs post : List ℕ) (q : ℕ) :
    q ∈ fillOrder en pre qs post ↔ q ∈ pre ∨ q ∈ qs ∨ q ∈ post := by
  cases en <;> simp only [fillOrder, List.mem_append, List.mem_reverse] <;> tauto

/-- The operator of a filled matrix. -/
theorem lift_fill (en : Endian) (pre qs post : List ℕ) (hnd : (pre ++ qs ++ post).Nodup) (T : TMat)
    (U : Matrix (Fin qs.length → Bool) (Fin qs.length → Bool) ℂ)
    (hT : Rep (fillOrder en pre qs post) T fun u v =>
      agree pre u v * U (fun i => u qs[i]) (fun i => v qs[i]) * agree post u v) :
    (lift (fillOrder en pre qs post) T.e : Oper n) = embed (fun i : Fin qs.length => qs[i]) U := by
  obtain ⟨hnd1, hndp, hdis2⟩ := List.nodup_append.1 hnd
  obtain ⟨hndpre, hndq, hdis1⟩ := List.nodup_append.1 hnd1
  funext x y
  rw [lift_apply, hT.2]
  simp only [embed]
  have hbit : ∀ q, bit x q = bit y q ∨ ∃ h : q < n, x ⟨q, h⟩ ≠ y ⟨q, h⟩ := by
    intro q
    by_cases h : q < n
    · by_cases e : x ⟨q, h⟩ = y ⟨q, h⟩
      · left; simp [bit, h, e]
      · exact Or.inr ⟨h, e⟩
    · left; simp [bit, h]
  by_cases hc : ∀ j : Fin n, (∀ i : Fin qs.length, qs[i] ≠ j) → x j = y j
  · have hout : ∀ q, q ∉ qs → bit x q = bit y q := by
      intro q hq
      rcases hbit q with h | ⟨h, hne⟩
      · exact h
      · refine absurd (hc ⟨q, h⟩ fun i e => hq ?_) hne
        simp only at e
        rw [← e]
        simp
    rw [if_pos hc, if_pos]
    · have h1 : agree pre (bit x) (bit y) = 1 := if_pos fun q hq => hout q fun h => hdis1 q hq q h rfl
      have h2 : agree post (bit x) (bit y) = 1 :=
        if_pos fun q hq => hout q fun h => hdis2 q (List.mem_append.2 (Or.inr h)) q hq rfl
      rw [h1, h2, one_mul, mul_one]
    · intro j hj
      rw [mem_fillOrder] at hj
      apply hc
      intro i e
      exact hj (Or.inr (Or.inl (e ▸ List.getElem_mem _)))
  · rw [if_neg hc]
    split
    · next hoff =>
      push Not at hc
      obtain ⟨j, hj, hne⟩ := hc
      have hjq : (j : ℕ) ∉ qs := by
        intro h
        obtain ⟨i, hi, e⟩ := List.getElem_of_mem h
        exact hj ⟨i, hi⟩ e
      have hjo : (j : ℕ) ∈ fillOrder en pre qs post := by
        by_contra h
        exact hne (hoff j h)
      rw [mem_fillOrder] at hjo
      have hb : ¬ bit x j = bit y j := by rwa [bit_val, bit_val]
      rcases hjo with h | h | h
      · have : agree pre (bit x) (bit y) = 0 := if_neg fun h' => hb (h' _ h)
        rw [this]; ring
      · exact absurd h hjq
      · have : agree post (bit x) (bit y) = 0 := if_neg fun h' => hb (h' _ h)
        rw [this]; ring
    · rfl

/-- The order of qubits in the matrices: sorted for big endian, reversed for little endian. -/
def qubitOrder (en : Endian) (fs : List ℕ) : List ℕ :=
  match en with
  | .big => fs.insertionSort (· ≤ ·)
  | .little => (fs.insertionSort (· ≤ ·)).reverse

theorem length_qubitOrder (en : Endian) (fs : List ℕ) : (qubitOrder en fs).length = fs.length := by
  cases en <;> simp [qubitOrder]

theorem mem_qubitOrder (en : Endian) (fs : List ℕ) (q : ℕ) : q ∈ qubitOrder en fs ↔ q ∈ fs := by
  cases en <;> simp [qubitOrder]

theorem nodup_qubitOrder (en : Endian) (fs : List ℕ) (h : fs.Nodup) : (qubitOrder en fs).Nodup := by
  have : (fs.insertionSort (· ≤ ·)).Nodup := (List.perm_insertionSort _ fs).nodup_iff.2 h
  cases en
  · exact this
  · exact List.nodup_reverse.2 this

/-- `fillIdentities` for one-qubit matrices. -/
theorem fill_single (en : Endian) (B : TMat) (hB : B.dim = 2) (q : ℕ) (fs : List ℕ) (hn : fs.Nodup) (hq : q ∈ fs) :
    ∃ T, fillIdentities en B [q] fs = .ok T ∧ T.dim = 2 ^ (qubitOrder en fs).length ∧
      (embed1 q (Matrix.of fun a b => B.e a.toNat b.toNat) : Oper n) = lift (qubitOrder en fs) T.e := by
  have hs : q ∈ fs.insertionSort (· ≤ ·) := by simpa using hq
  obtain ⟨pre, post, hpp⟩ := List.append_of_mem hs
  have hpp' : fs.insertionSort (· ≤ ·) = pre ++ [q] ++ post := by simpa using hpp
  have hnd : (pre ++ [q] ++ post).Nodup := hpp' ▸ (List.perm_insertionSort _ fs).nodup_iff.2 hn
  have hrep : Rep [q] B fun u v => B.e (u q).toNat (v q).toNat :=
    ⟨hB, fun u v => by rw [index_singleton, index_singleton]⟩
  obtain ⟨T, hT, hr⟩ := fill_rep en B [q] fs pre [q] post (by simp) rfl hpp' hnd _ hrep
  have ho : fillOrder en pre [q] post = qubitOrder en fs := by
    cases en
    · exact hpp'.symm
    · simp [fillOrder, qubitOrder, hpp']
  refine ⟨T, hT, by rw [hr.1, ho], ?_⟩
  rw [← ho]
  have := lift_fill (n := n) en pre [q] post hnd T
    (Matrix.of fun a b => B.e (a 0).toNat (b 0).toNat) hr
  rw [this, embed1_eq_embed]
  congr 1
  funext i
  simp

end Qadence
