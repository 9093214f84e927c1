import Verif.Model.PyErr
/-
Two computations of which the first may, under a condition, raise AssertionError where the second does not, and otherwise does the same.
-/
namespace Qudits

/-- `x` raises AssertionError and `E` holds, or both raise the same, or both return related values. -/
def Below {α β : Type} (E : Prop) (R : α → β → Prop) (x : Except PyErr α) (y : Except PyErr β) : Prop :=
  (E ∧ x = .error .assertionError) ∨ (∃ e, x = .error e ∧ y = .error e) ∨ ∃ a b, x = .ok a ∧ y = .ok b ∧ R a b

variable {E : Prop} {α β γ δ : Type} {R : α → β → Prop} {S : γ → δ → Prop}

theorem Below.ok {a : α} {b : β} (h : R a b) : Below E R (.ok a) (.ok b) := Or.inr (Or.inr ⟨a, b, rfl, rfl, h⟩)

theorem Below.err (e : PyErr) : Below E R (.error e) (.error e) := Or.inr (Or.inl ⟨e, rfl, rfl⟩)

theorem Below.self {R : α → α → Prop} (x : Except PyErr α) (h : ∀ a, x = .ok a → R a a) : Below E R x x := by
  cases x with
  | error e => exact .err e
  | ok a => exact .ok (h a rfl)

theorem Below.bind {x : Except PyErr α} {y : Except PyErr β} {f : α → Except PyErr γ} {g : β → Except PyErr δ} (h : Below E R x y)
    (hf : ∀ a b, R a b → Below E S (f a) (g b)) : Below E S (x >>= f) (y >>= g) := by
  rcases h with ⟨hE, rfl⟩ | ⟨e, rfl, rfl⟩ | ⟨a, b, rfl, rfl, h⟩
  · exact Or.inl ⟨hE, rfl⟩
  · exact .err e
  · exact hf a b h

theorem Below.mono {x : Except PyErr α} {y : Except PyErr β} {R' : α → β → Prop} (h : Below E R x y) (hR : ∀ a b, R a b → R' a b) : Below E R' x y := by
  rcases h with ⟨hE, rfl⟩ | ⟨e, rfl, rfl⟩ | ⟨a, b, rfl, rfl, h⟩
  · exact Or.inl ⟨hE, rfl⟩
  · exact .err e
  · exact .ok (hR a b h)

theorem Below.foldlM {σ τ ι : Type} {R : σ → τ → Prop} {f : σ → ι → Except PyErr σ} {g : τ → ι → Except PyErr τ} (l : List ι)
    (h : ∀ i ∈ l, ∀ a b, R a b → Below E R (f a i) (g b i)) (a : σ) (b : τ) (hab : R a b) : Below E R (l.foldlM f a) (l.foldlM g b) := by
  induction l generalizing a b with
  | nil => exact .ok hab
  | cons i l ih =>
    rw [List.foldlM_cons, List.foldlM_cons]
    exact (h i (by simp) a b hab).bind fun a' b' h' => ih (fun j hj => h j (List.mem_cons_of_mem _ hj)) a' b' h'

theorem Below.mapM {ι : Type} {P : α → Prop} {f g : ι → Except PyErr α} (l : List ι)
    (h : ∀ i ∈ l, Below E (fun a b => a = b ∧ P a) (f i) (g i)) : Below E (fun as bs => as = bs ∧ ∀ a ∈ as, P a) (l.mapM f) (l.mapM g) := by
  induction l with
  | nil => exact .ok ⟨rfl, by simp⟩
  | cons i l ih =>
    rw [List.mapM_cons, List.mapM_cons]
    refine (h i (by simp)).bind fun a b hab => ?_
    refine (ih fun j hj => h j (List.mem_cons_of_mem _ hj)).bind fun as bs has => ?_
    obtain ⟨rfl, ha⟩ := hab
    obtain ⟨rfl, hs⟩ := has
    exact .ok ⟨rfl, by simpa using ⟨ha, hs⟩⟩

theorem Below.of_ok {x : Except PyErr α} {b : β} (h : Below E R x (.ok b)) : (E ∧ x = .error .assertionError) ∨ ∃ a, x = .ok a ∧ R a b := by
  rcases h with h | ⟨e, _, h⟩ | ⟨a, b', h1, h2, h3⟩
  · exact Or.inl h
  · cases h
  · exact Or.inr ⟨a, h1, by rw [Except.ok.inj h2]; exact h3⟩

end Qudits
