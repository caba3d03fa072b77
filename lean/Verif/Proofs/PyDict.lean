import Mathlib.Data.List.Nodup
import Mathlib.Algebra.BigOperators.Group.List.Basic
import Verif.Model.Py

/-! Lemmas about the dictionary model and about `mapM` in `Except`. -/

namespace Qadence

namespace PyDict

variable {κ : Type _} {ν : Type _} [DecidableEq κ]

theorem get?_set (d : PyDict κ ν) (k k' : κ) (v : ν) :
    get? (set d k v) k' = if k = k' then some v else get? d k' := by
  induction d with
  | nil => simp [set, get?]
  | cons a d ih =>
    obtain ⟨a, w⟩ := a
    by_cases h : a = k
    · subst h
      by_cases h2 : a = k' <;> simp [set, get?, h2]
    · by_cases h2 : a = k'
      · subst h2
        have : ¬ k = a := fun e => h e.symm
        simp [set, get?, h, this]
      · simp [set, get?, h, h2, ih]

theorem set_of_not_mem (d : PyDict κ ν) (k : κ) (v : ν) (h : k ∉ d.map Prod.fst) :
    set d k v = d ++ [(k, v)] := by
  induction d with
  | nil => rfl
  | cons a d ih =>
    obtain ⟨a, w⟩ := a
    simp only [List.map_cons, List.mem_cons, not_or] at h
    simp [set, Ne.symm h.1, ih h.2]

theorem foldl_set_append (items acc : List (κ × ν)) (h : ((acc ++ items).map Prod.fst).Nodup) :
    items.foldl (fun d kv => set d kv.1 kv.2) acc = acc ++ items := by
  induction items generalizing acc with
  | nil => simp
  | cons a items ih =>
    have h1 : a.1 ∉ acc.map Prod.fst := by
      rw [List.map_append, List.nodup_append] at h
      intro hm
      exact h.2.2 _ hm _ (by simp) rfl
    rw [List.foldl_cons, set_of_not_mem _ _ _ h1, ih]
    · simp
    · simpa using h

/-- A dict comprehension over items with distinct keys keeps the items as they are. -/
theorem ofItems_of_nodup (items : List (κ × ν)) (h : (items.map Prod.fst).Nodup) :
    ofItems items = items := by
  have := foldl_set_append items [] (by simpa using h)
  simpa [ofItems] using this

theorem keys_set (d : PyDict κ ν) (k : κ) (v : ν) (x : κ) :
    x ∈ (set d k v).map Prod.fst ↔ x = k ∨ x ∈ d.map Prod.fst := by
  induction d with
  | nil => simp [set]
  | cons a d ih =>
    obtain ⟨a, w⟩ := a
    by_cases h : a = k
    · subst h; simp [set]
    · simp only [set, h, if_false, List.map_cons, List.mem_cons, ih]
      tauto

theorem WF_set (d : PyDict κ ν) (k : κ) (v : ν) (h : WF d) : WF (set d k v) := by
  induction d with
  | nil => simp [set, WF]
  | cons a d ih =>
    obtain ⟨a, w⟩ := a
    simp only [WF, List.map_cons, List.nodup_cons] at h
    by_cases h2 : a = k
    · subst h2; simpa [set, WF] using h
    · simp only [set, h2, if_false, WF, List.map_cons, List.nodup_cons, keys_set]
      refine ⟨?_, ih h.2⟩
      simp [h2, h.1]

theorem WF_ofItems (items : List (κ × ν)) : WF (ofItems items) := by
  unfold ofItems
  suffices ∀ (d : PyDict κ ν), WF d → WF (items.foldl (fun d kv => set d kv.1 kv.2) d) from
    this [] (by simp [WF])
  induction items with
  | nil => intro d h; simpa
  | cons a l ih => intro d h; exact ih _ (WF_set _ _ _ h)

theorem WF_merge (d e : PyDict κ ν) (h : WF d) : WF (merge d e) := by
  unfold merge
  induction e generalizing d with
  | nil => simpa
  | cons a l ih => exact ih _ (WF_set _ _ _ h)

theorem get?_eq_some_of_mem {d : PyDict κ ν} (h : WF d) {k : κ} {v : ν} (hm : (k, v) ∈ d) :
    get? d k = some v := by
  induction d with
  | nil => simp at hm
  | cons a d ih =>
    obtain ⟨a, w⟩ := a
    simp only [WF, List.map_cons, List.nodup_cons] at h
    rcases List.mem_cons.1 hm with e | hm
    · cases e; simp [get?]
    · have : a ≠ k := by
        rintro rfl
        exact h.1 (List.mem_map.2 ⟨_, hm, rfl⟩)
      simp [get?, this, ih h.2 hm]

theorem mem_of_get? {d : PyDict κ ν} {k : κ} {v : ν} (h : get? d k = some v) : (k, v) ∈ d := by
  induction d with
  | nil => simp [get?] at h
  | cons a d ih =>
    obtain ⟨a, w⟩ := a
    by_cases h2 : a = k
    · subst h2; simp [get?] at h; simp [h]
    · simp only [get?, h2, if_false] at h
      exact List.mem_cons_of_mem _ (ih h)

theorem get?_eq_none_iff {d : PyDict κ ν} {k : κ} : get? d k = none ↔ k ∉ d.map Prod.fst := by
  induction d with
  | nil => simp [get?]
  | cons a d ih =>
    obtain ⟨a, w⟩ := a
    by_cases h2 : a = k
    · subst h2; simp [get?]
    · have : ¬ k = a := fun e => h2 e.symm
      simp [get?, h2, ih, this]

theorem get?_isSome_iff {d : PyDict κ ν} {k : κ} : (get? d k).isSome ↔ k ∈ d.map Prod.fst := by
  by_cases h : k ∈ d.map Prod.fst
  · cases h2 : get? d k with
    | none => exact absurd h (get?_eq_none_iff.1 h2)
    | some v => simp [h]
  · simp [get?_eq_none_iff.2 h, h]

theorem get?_merge (d e : PyDict κ ν) (he : WF e) (k : κ) :
    get? (merge d e) k = (get? e k).or (get? d k) := by
  unfold merge
  induction e generalizing d with
  | nil => simp [get?]
  | cons a l ih =>
    obtain ⟨a, w⟩ := a
    simp only [WF, List.map_cons, List.nodup_cons] at he
    rw [List.foldl_cons, ih _ he.2, get?_set]
    by_cases h2 : a = k
    · subst h2
      have := get?_eq_none_iff.2 he.1
      simp [get?, this]
    · simp [get?, h2]

theorem get?_merge_of_not_mem (d e : PyDict κ ν) (k : κ) (h : k ∉ e.map Prod.fst) :
    get? (merge d e) k = get? d k := by
  unfold merge
  induction e generalizing d with
  | nil => rfl
  | cons a e ih =>
    simp only [List.map_cons, List.mem_cons, not_or] at h
    rw [List.foldl_cons, ih _ h.2, get?_set, if_neg fun h' => h.1 h'.symm]

/-- If all items of a key carry the same value, the dictionary returns it. -/
theorem get?_merge_of_consistent (d e : PyDict κ ν) (k : κ) (v : ν) (hm : (k, v) ∈ e)
    (h : ∀ w, (k, w) ∈ e → w = v) : get? (merge d e) k = some v := by
  induction e generalizing d with
  | nil => simp at hm
  | cons a e ih =>
    have hstep : merge d (a :: e) = merge (set d a.1 a.2) e := rfl
    rw [hstep]
    by_cases hk : k ∈ e.map Prod.fst
    · obtain ⟨⟨k', w⟩, hw, rfl⟩ := List.mem_map.1 hk
      have hwv := h w (by simp [hw])
      exact ih _ (by rw [← hwv]; exact hw) fun w' hw' => h w' (by simp [hw'])
    · rw [get?_merge_of_not_mem _ _ _ hk, get?_set]
      rcases List.mem_cons.1 hm with rfl | hm
      · simp
      · exact absurd (List.mem_map.2 ⟨_, hm, rfl⟩) hk

theorem get?_ofItems_of_consistent (items : List (κ × ν)) (k : κ) (v : ν) (hm : (k, v) ∈ items)
    (h : ∀ w, (k, w) ∈ items → w = v) : get? (ofItems items) k = some v :=
  get?_merge_of_consistent [] items k v hm h

/-- The values in a dictionary built from items come from the items. -/
theorem mem_of_get?_merge (d e : PyDict κ ν) (k : κ) (v : ν) (h : get? (merge d e) k = some v) :
    (k, v) ∈ e ∨ get? d k = some v := by
  induction e generalizing d with
  | nil => exact .inr h
  | cons a e ih =>
    have hstep : merge d (a :: e) = merge (set d a.1 a.2) e := rfl
    rw [hstep] at h
    rcases ih _ h with h | h
    · exact .inl (by simp [h])
    · rw [get?_set] at h
      split at h
      · next hk => injection h with h2; subst hk h2; exact .inl (by simp)
      · exact .inr h

end PyDict

/-! ### `mapM` in `Except` -/

theorem mapM_ok {α β : Type _} {f : α → Except PyErr β} {g : α → β} (l : List α)
    (h : ∀ a ∈ l, f a = .ok (g a)) : l.mapM f = .ok (l.map g) := by
  induction l with
  | nil => rfl
  | cons a l ih =>
    rw [List.mapM_cons, h a (by simp), ih (fun b hb => h b (by simp [hb]))]
    rfl

theorem mapM_error {α β : Type _} {f : α → Except PyErr β} (l : List α) {a : α} (ha : a ∈ l)
    {e : PyErr} (hf : f a = .error e) : ∃ e', l.mapM f = .error e' := by
  induction l with
  | nil => simp at ha
  | cons b l ih =>
    rw [List.mapM_cons]
    cases hb : f b with
    | error e' => exact ⟨e', rfl⟩
    | ok y =>
      rcases List.mem_cons.1 ha with rfl | ha
      · rw [hf] at hb; cases hb
      · obtain ⟨e', he'⟩ := ih ha
        exact ⟨e', by rw [he']; rfl⟩

end Qadence
