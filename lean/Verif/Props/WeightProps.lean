import Verif.Model.UniqueWeights
import Verif.Spec.WeightSpec
/-!
# C108: the different weights of a decision tree

`unique_weights` (micro_dd.py:84-97) walks through the tree with a stack.
-/
namespace Qudits
open MicroDD Spec

theorem inside_node (x : MicroDD) (i : MInfo) (cs : List MicroDD) : Inside x (.node i cs) ↔ x = .node i cs ∨ ∃ c ∈ cs, Inside x c := by
  constructor
  · intro h
    cases h with
    | here => exact Or.inl rfl
    | child c _ hc h => exact Or.inr ⟨_, hc, h⟩
  · rintro (rfl | ⟨c, hc, h⟩)
    · exact .here _
    · exact .child x c _ hc h

theorem weightLoop_spec (n : Nat) : ∀ (stack : List MicroDD) (seen : List ℂ), (stack.map sizeOf).sum ≤ n → seen.Nodup →
    (weightLoop stack seen).Nodup ∧ ∀ w, w ∈ weightLoop stack seen ↔ w ∈ seen ∨ ∃ t ∈ stack, ∃ x, Inside x t ∧ x.weight = w := by
  classical
  induction n with
  | zero =>
    intro stack seen hn hs
    cases stack with
    | nil => rw [weightLoop]; simpa using hs
    | cons t rest =>
      cases t with
      | node i cs => simp at hn
  | succ n ih =>
    intro stack seen hn hs
    cases stack with
    | nil => rw [weightLoop]; simpa using hs
    | cons t rest =>
      cases t with
      | node i cs =>
        rw [weightLoop]
        have hsz := children_size cs
        have hs' : (if i.weight ∈ seen then seen else seen ++ [i.weight]).Nodup := by
          split_ifs with hw
          · exact hs
          · exact List.Nodup.append hs (by simp) (by simpa using hw)
        have hmem : ∀ w, w ∈ (if i.weight ∈ seen then seen else seen ++ [i.weight]) ↔ w ∈ seen ∨ w = i.weight := by
          intro w
          split_ifs with hw
          · constructor
            · exact Or.inl
            · rintro (h | rfl)
              · exact h
              · exact hw
          · simp
        obtain ⟨k1, k2⟩ := ih (cs.reverse ++ rest) _ (by simp at hn ⊢; omega) hs'
        refine ⟨k1, fun w => ?_⟩
        rw [k2, hmem]
        simp only [List.mem_append, List.mem_reverse, List.mem_cons, inside_node, or_and_right, exists_or, exists_eq_left]
        constructor
        · rintro ((h | h) | h | h)
          · exact Or.inl h
          · exact Or.inr (Or.inl (Or.inl h.symm))
          · obtain ⟨t, ht, x, hx, e⟩ := h
            exact Or.inr (Or.inl (Or.inr ⟨x, ⟨t, ht, hx⟩, e⟩))
          · exact Or.inr (Or.inr h)
        · rintro (h | (h | ⟨x, ⟨t, ht, hx⟩, e⟩) | h)
          · exact Or.inl (Or.inl h)
          · exact Or.inl (Or.inr h.symm)
          · exact Or.inr (Or.inl ⟨t, ht, x, hx, e⟩)
          · exact Or.inr (Or.inr h)

/-- **C108**.  `unique_weights` returns the weights of the root and of all nodes below it, each once, and nothing else. -/
theorem C108_weights (root : MicroDD) : (uniqueWeights root).Nodup ∧ ∀ w, w ∈ uniqueWeights root ↔ ∃ x, Inside x root ∧ x.weight = w := by
  obtain ⟨h1, h2⟩ := weightLoop_spec _ [root] [] le_rfl (by simp)
  exact ⟨h1, fun w => by rw [uniqueWeights, h2]; simp⟩

/-- two of three nodes have the same weight -/
example : (2 : ℂ) ∈ uniqueWeights (.node { weight := 1 } [.node { weight := 2 } [], .node { weight := 2 } []]) ∧
    (3 : ℂ) ∉ uniqueWeights (.node { weight := 1 } [.node { weight := 2 } [], .node { weight := 2 } []]) := by
  constructor
  · exact (C108_weights _).2 2 |>.2 ⟨_, .child _ _ _ (by simp [children]; rfl) (.here _), rfl⟩
  · rw [(C108_weights _).2]
    rintro ⟨x, hx, e⟩
    simp only [inside_node, List.mem_cons, List.not_mem_nil, or_false, or_self, exists_eq_left, false_and, exists_false] at hx
    rcases hx with rfl | rfl <;> norm_num [weight, info] at e

end Qudits
