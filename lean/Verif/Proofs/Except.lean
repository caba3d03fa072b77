import Verif.Model.Py

/-!
# Sequencing of computations which may raise
-/

namespace Qadence

theorem bind_ok {α β : Type} {x : Except PyErr α} {f : α → Except PyErr β} {b : β} (h : (x >>= f) = .ok b) :
    ∃ a, x = .ok a ∧ f a = .ok b := by
  cases x with
  | error e => cases h
  | ok a => exact ⟨a, rfl, h⟩

theorem ok_bind {α β : Type} (a : α) (f : α → Except PyErr β) : ((Except.ok a : Except PyErr α) >>= f) = f a := rfl

theorem error_bind {α β : Type} (e : PyErr) (f : α → Except PyErr β) :
    ((Except.error e : Except PyErr α) >>= f) = .error e := rfl

theorem pure_ok {α : Type} {a b : α} (h : (pure a : Except PyErr α) = .ok b) : a = b := by
  injection h

theorem pure_eq_ok {α : Type} (a : α) : (pure a : Except PyErr α) = .ok a := rfl

theorem map_ok {α β : Type} {x : Except PyErr α} {f : α → β} {b : β} (h : (f <$> x) = .ok b) :
    ∃ a, x = .ok a ∧ f a = b := by
  cases x with
  | error e => cases h
  | ok a => exact ⟨a, rfl, by injection h⟩

theorem mapM_ok_map {α β : Type} {f : α → Except PyErr β} {g : α → β} {l : List α}
    (h : ∀ a ∈ l, f a = .ok (g a)) : l.mapM f = .ok (l.map g) := by
  induction l with
  | nil => rfl
  | cons a l ih =>
    rw [List.mapM_cons, h a (by simp), ok_bind, ih fun b hb => h b (by simp [hb]), ok_bind]
    rfl

theorem mapM_ok_mem {α β : Type} {f : α → Except PyErr β} {l : List α} {m : List β} (h : l.mapM f = .ok m) :
    (∀ a ∈ l, ∃ b ∈ m, f a = .ok b) ∧ ∀ b ∈ m, ∃ a ∈ l, f a = .ok b := by
  induction l generalizing m with
  | nil =>
    have : [] = m := by rw [List.mapM_nil] at h; exact pure_ok h
    subst this; simp
  | cons a l ih =>
    rw [List.mapM_cons] at h
    obtain ⟨b, ha, h⟩ := bind_ok h
    obtain ⟨bs, hl, h⟩ := bind_ok h
    have := pure_ok h
    subst this
    obtain ⟨i1, i2⟩ := ih hl
    constructor
    · intro x hx
      rcases List.mem_cons.1 hx with rfl | hx
      · exact ⟨b, by simp, ha⟩
      · obtain ⟨y, hy, e⟩ := i1 x hx
        exact ⟨y, by simp [hy], e⟩
    · intro y hy
      rcases List.mem_cons.1 hy with rfl | hy
      · exact ⟨a, by simp, ha⟩
      · obtain ⟨x, hx, e⟩ := i2 y hy
        exact ⟨x, by simp [hx], e⟩

theorem mapM_ok_of_forall {α β : Type} {f : α → Except PyErr β} {l : List α}
    (h : ∀ a ∈ l, ∃ b, f a = .ok b) : ∃ m, l.mapM f = .ok m := by
  induction l with
  | nil => exact ⟨[], rfl⟩
  | cons a l ih =>
    obtain ⟨b, hb⟩ := h a (by simp)
    obtain ⟨m, hm⟩ := ih fun c hc => h c (by simp [hc])
    exact ⟨b :: m, by rw [List.mapM_cons, hb, ok_bind, hm, ok_bind]; rfl⟩

end Qadence
