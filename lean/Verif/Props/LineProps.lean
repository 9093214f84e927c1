import Verif.Model.TargetLines
import Verif.Spec.LineSpec
import Verif.Props.VarCompileProps
/-!
# C109: applying a gate to some lines

`apply_gate_to_tlines` (numerical_ansatz_utils.py:46-62) adds the operators that act on one target line each, and starts from a matrix whose
size is that of qubits.
-/
namespace Qudits
open Variational Spec

/-- what the operator on one line is -/
theorem onEach_one {n : Nat} {d : Fin n → Nat} (t : Fin n) (gate : Arr2 ℂ) (x y : (i : Fin n) → Fin (d i)) :
    onEach {t} gate x y = if ∀ i, i ≠ t → x i = y i then gate.at' (x t) (y t) else 0 := by
  unfold onEach
  split_ifs with h
  · rw [Finset.prod_eq_single t]
    · simp
    · intro i _ hi
      simp [hi, h i hi]
    · simp
  · push Not at h
    obtain ⟨i, hi, hx⟩ := h
    exact Finset.prod_eq_zero (Finset.mem_univ i) (by simp [hi, hx])

theorem plusEq_same {a b : Arr2 ℂ} (h1 : b.rows = a.rows) (h2 : b.cols = a.cols) (h3 : b.rows ≠ 1) (h4 : b.cols ≠ 1) :
    plusEq a b = .ok ⟨a.rows, a.cols, fun r c => a.at' r c + b.at' r c⟩ := by
  unfold plusEq
  rw [if_pos ⟨Or.inl h1, Or.inl h2⟩]
  simp only [if_neg h3, if_neg h4]

theorem addLines_ok {n : Nat} (gate : Arr2 ℂ) (hr : gate.rows = 2) (hc : gate.cols = 2) (ts : List (Fin n)) : ∀ acc : Arr2 ℂ,
    acc.rows = 2 ^ n → acc.cols = 2 ^ n →
    ∃ A, addLines gate n (List.replicate n 2) acc (ts.map Fin.val) = .ok A ∧ A.rows = 2 ^ n ∧ A.cols = 2 ^ n ∧
      ∀ x y : (i : Fin n) → Fin 2, A.at' (idx (fun _ => 2) x) (idx (fun _ => 2) y) =
        acc.at' (idx (fun _ => 2) x) (idx (fun _ => 2) y) + (ts.map fun t => onEach (d := fun _ => 2) {t} gate x y).sum := by
  induction ts with
  | nil => intro acc h1 h2; exact ⟨acc, rfl, h1, h2, by simp⟩
  | cons t ts ih =>
    intro acc h1 h2
    obtain ⟨E, e1, e2, e3, e4⟩ := C62_expand (fun _ : Fin n => 2) t gate hr hc
    have hn : 0 < n := t.pos
    have h2n : (2 : Nat) ^ n ≠ 1 := by
      have := Nat.one_lt_two_pow (n := n) (by omega)
      omega
    simp only [Finset.prod_const, Finset.card_univ, Fintype.card_fin] at e2 e3
    rw [show List.ofFn (fun _ : Fin n => 2) = List.replicate n 2 from List.ofFn_const n 2] at e1
    obtain ⟨A, a1, a2, a3, a4⟩ := ih ⟨acc.rows, acc.cols, fun r c => acc.at' r c + E.at' r c⟩ h1 h2
    refine ⟨A, ?_, a2, a3, fun x y => ?_⟩
    · unfold addLines at a1 ⊢
      rw [List.map_cons, List.foldlM_cons]
      simp only [bind, Except.bind] at a1 ⊢
      rw [e1]
      simp only []
      rw [plusEq_same (by rw [e2, h1]) (by rw [e3, h2]) (by rw [e2]; exact h2n) (by rw [e3]; exact h2n)]
      exact a1
    · rw [a4, List.map_cons, List.sum_cons, onEach_one, ← add_assoc]
      show acc.at' _ _ + E.at' _ _ + _ = _
      rw [e4]

/-- **C109** (what is computed).  On qubits the result is the sum of the operators on the single targets. -/
theorem C109_sum {n : Nat} (gate : Arr2 ℂ) (hr : gate.rows = 2) (hc : gate.cols = 2) (ts : List (Fin n)) :
    ∃ A, applyToLines gate n (some (ts.map Fin.val)) (some (List.replicate n 2)) = .ok A ∧ A.rows = 2 ^ n ∧ A.cols = 2 ^ n ∧
      ∀ x y : (i : Fin n) → Fin 2, A.at' (idx (fun _ => 2) x) (idx (fun _ => 2) y) =
        (ts.map fun t => onEach (d := fun _ => 2) {t} gate x y).sum := by
  obtain ⟨A, h1, h2, h3, h4⟩ := addLines_ok gate hr hc ts ⟨2 ^ n, 2 ^ n, fun _ _ => 0⟩ rfl rfl
  exact ⟨A, h1, h2, h3, fun x y => by rw [h4, zero_add]⟩

/-- **C109** (one target).  Full statement: `apply_gate_to_tlines` returns the operator that applies the gate to each of the targets, for all
dimensions.  Proved for one target in a register of qubits; the two theorems below show that the rest is false. -/
theorem C109_one_partial {n : Nat} (gate : Arr2 ℂ) (hr : gate.rows = 2) (hc : gate.cols = 2) (t : Fin n) :
    ∃ A, applyToLines gate n (some [(t : Nat)]) none = .ok A ∧ A.rows = 2 ^ n ∧ A.cols = 2 ^ n ∧
      ∀ x y : (i : Fin n) → Fin 2, A.at' (idx (fun _ => 2) x) (idx (fun _ => 2) y) = onEach (d := fun _ => 2) {t} gate x y := by
  obtain ⟨A, h1, h2, h3, h4⟩ := C109_sum gate hr hc [t]
  exact ⟨A, h1, h2, h3, fun x y => by rw [h4]; simp⟩

/-- **C109** (violated for several targets).  With the default targets, all lines, the identity on two or more qubits becomes a multiple of
the identity. -/
theorem C109_several_violated (n : Nat) (hn : 2 ≤ n) :
    ∃ A, applyToLines (Arr2.identity 2) n none none = .ok A ∧ ∀ x : (i : Fin n) → Fin 2,
      A.at' (idx (fun _ => 2) x) (idx (fun _ => 2) x) = n ∧ onEach (d := fun _ => 2) Finset.univ (Arr2.identity 2) x x = 1 ∧
      A.at' (idx (fun _ => 2) x) (idx (fun _ => 2) x) ≠ onEach (d := fun _ => 2) Finset.univ (Arr2.identity 2) x x := by
  obtain ⟨A, h1, _, _, h4⟩ := C109_sum (Arr2.identity 2) rfl rfl (List.finRange n)
  have hr : (List.finRange n).map Fin.val = List.range n := by simp
  have hd : ∀ S (x : (i : Fin n) → Fin 2), onEach (d := fun _ => 2) S (Arr2.identity 2) x x = 1 := by
    intro S x
    unfold onEach
    refine Finset.prod_eq_one fun i _ => ?_
    simp [Arr2.identity]
  refine ⟨A, ?_, fun x => ?_⟩
  · rw [hr] at h1
    exact h1
  · have e : A.at' (idx (fun _ => 2) x) (idx (fun _ => 2) x) = n := by
      rw [h4]
      simp [hd]
    refine ⟨e, hd _ x, ?_⟩
    rw [e, hd]
    intro h
    have : n = 1 := by exact_mod_cast h
    omega

/-- **C109** (violated for other dimensions).  In a register whose size is not that of qubits, every call with a target fails. -/
theorem C109_dims_violated {n : Nat} (d : Fin n → Nat) (t : Fin n) (ts : List Nat) (gate : Arr2 ℂ) (hr : gate.rows = d t)
    (hc : gate.cols = d t) (h1 : ∏ i, d i ≠ 2 ^ n) (h2 : ∏ i, d i ≠ 1) :
    applyToLines gate n (some ((t : Nat) :: ts)) (some (List.ofFn d)) = .error .valueError := by
  obtain ⟨E, e1, e2, e3, _⟩ := C62_expand d t gate hr hc
  unfold applyToLines addLines
  simp only [Option.getD_some, List.foldlM_cons, bind, Except.bind]
  rw [e1]
  simp only []
  unfold plusEq
  rw [if_neg]
  rintro ⟨h | h, _⟩
  · exact h1 (by rw [← e2]; exact h)
  · exact h2 (by rw [← e2]; exact h)

/-- the gate that exchanges the levels, on the second of two qubits -/
example : ∃ A, applyToLines ⟨2, 2, fun r c => if r = c then 0 else 1⟩ 2 (some [1]) none = .ok A ∧
    A.at' (idx (d := fun _ : Fin 2 => 2) ![0, 0]) (idx (d := fun _ : Fin 2 => 2) ![0, 1]) = 1 := by
  obtain ⟨A, h1, _, _, h4⟩ := C109_one_partial (n := 2) ⟨2, 2, fun r c => if r = c then 0 else 1⟩ rfl rfl 1
  exact ⟨A, h1, by rw [h4, onEach_one]; simp⟩

/-- a single qutrit -/
example : applyToLines (Arr2.identity 3) 1 (some [0]) (some [3]) = .error .valueError := by
  simpa using C109_dims_violated ![3] 0 [] (Arr2.identity 3) rfl rfl (by simp) (by simp)

end Qudits
