import Verif.Model.NodeOrder
/-!
# C110: comparisons of decision nodes

`a < b`, `a > b`, `a <= b`, `a >= b` of `MicroDDNode` (micro_dd.py:22-38) should order nodes by their labels.
-/
namespace Qudits
open NodeOrder

/-- **C110** (less).  `a < b` always answers, and it says yes exactly when both labels are integers and that of `a` is smaller. -/
theorem C110_less (a b : DNode) : ∃ r, less a b = .ok r ∧ (r = true ↔ ∃ x y, a.value = .int x ∧ b.value = .int y ∧ x < y) := by
  obtain ⟨i, v⟩ := a
  obtain ⟨j, w⟩ := b
  cases v <;> cases w <;> simp [less, operator, lt]

/-- **C110** (greater).  `a > b` is `b < a`. -/
theorem C110_greater (a b : DNode) : greater a b = less b a := by
  obtain ⟨i, v⟩ := a
  obtain ⟨j, w⟩ := b
  cases v <;> cases w <;> rfl

/-- **C110** (strict order).  No node is less than itself, and `<` is transitive. -/
theorem C110_order (a b c : DNode) :
    less a a = .ok false ∧ (less a b = .ok true → less b a = .ok false) ∧
      (less a b = .ok true → less b c = .ok true → less a c = .ok true) := by
  obtain ⟨i, v⟩ := a
  obtain ⟨j, w⟩ := b
  obtain ⟨k, u⟩ := c
  cases v <;> cases w <;> cases u <;> simp [less, operator, lt] <;> omega

/-- **C110** (less or equal).  Full statement: `a <= b` says yes when `a` is less or has the same label, and no otherwise.  What it does: yes for a smaller node and for the node itself, and no answer otherwise -/
theorem C110_atMost_partial (a b : DNode) :
    atMost a b = if less a b = .ok true ∨ a.object = b.object then .ok true else .error .typeError := by
  obtain ⟨i, v⟩ := a
  obtain ⟨j, w⟩ := b
  by_cases h : i = j
  · subst h
    cases v <;> cases w <;> simp [atMost, operator, le, orElse, eq, lt, less]
    rename_i x y
    by_cases hx : x < y <;> simp [hx, Int.not_lt.mp]
  · cases v <;> cases w <;> simp [atMost, operator, le, ge, gt, orElse, eq, lt, less, h, Ne.symm h, eq_comm]
    rename_i x y
    by_cases hx : x < y
    · simp [hx, Int.not_le.mpr hx]
    · simp [hx, Int.not_lt.mp hx]

/-- **C110** (greater or equal).  `a >= b` is `b <= a`. -/
theorem C110_atLeast (a b : DNode) : atLeast a b = atMost b a := by
  obtain ⟨i, v⟩ := a
  obtain ⟨j, w⟩ := b
  by_cases h : i = j
  · subst h
    cases v <;> cases w <;> simp [atMost, atLeast, operator, le, ge, gt, orElse, eq, lt]
  · cases v <;> cases w <;> simp [atMost, atLeast, operator, le, ge, gt, orElse, eq, lt, h, Ne.symm h, eq_comm]

/-- **C110** (violated).  `a <= b` is never false: of two different nodes with integer labels, `a <= b` raises TypeError whenever the label of
`a` is not smaller. -/
theorem C110_atMost_violated (a b : DNode) (x y : Int) (ha : a.value = .int x) (hb : b.value = .int y) (h : a.object ≠ b.object)
    (hxy : y ≤ x) : atMost a b = .error .typeError := by
  rw [C110_atMost_partial, if_neg]
  rintro (hl | ho)
  · obtain ⟨r, h1, h2⟩ := C110_less a b
    rw [h1] at hl
    obtain ⟨x', y', h3, h4, h5⟩ := h2.mp (Except.ok.inj hl)
    rw [ha] at h3
    rw [hb] at h4
    cases h3
    cases h4
    omega
  · exact h ho

/-- two nodes of line 1 of a tree -/
example : atMost ⟨0, .int 1⟩ ⟨1, .int 1⟩ = .error .typeError := C110_atMost_violated _ _ 1 1 rfl rfl (by decide) (by decide)
example : atMost ⟨0, .int 1⟩ ⟨1, .int 2⟩ = .ok true := rfl
example : less ⟨0, .int 1⟩ ⟨1, .int 2⟩ = .ok true ∧ less ⟨1, .int 2⟩ ⟨2, .int 5⟩ = .ok true := ⟨rfl, rfl⟩

end Qudits
