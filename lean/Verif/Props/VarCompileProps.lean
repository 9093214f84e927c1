import Verif.Props.VarAnsatzProps
import Verif.Props.FidelityProps

/-
Properties C58 (what the variational compiler returns), C60 (parametrised local unitaries), C61 (sparsifier) and
C62 (embedding by Kronecker products).
-/
namespace Qudits
open Variational Spec Matrix

/-! ### C62 -/

/-- C62: on a register with any number of lines and any dimensions, `gate_expand_to_circuit` of a matrix of the size of the target
line is the operator that acts as this matrix on the target line and leaves every other line alone. -/
theorem C62_expand {n : Nat} (d : Fin n → Nat) (t : Fin n) (gate : Arr2 ℂ) (hr : gate.rows = d t) (hc : gate.cols = d t) :
    ∃ A, gateExpand gate n t (List.ofFn d) = .ok A ∧ A.rows = ∏ i, d i ∧ A.cols = ∏ i, d i ∧
      ∀ x y, A.at' (idx d x) (idx d y) = if ∀ i, i ≠ t → x i = y i then gate.at' (x t) (y t) else 0 := by
  obtain ⟨A, h1, h2, h3, h4⟩ := gateExpand_reg d t gate hr hc
  refine ⟨A, h1, h2, h3, fun x y => ?_⟩
  rw [h4]
  unfold embed1
  by_cases h : ∀ i, i ≠ t → x i = y i
  · rw [if_pos h, if_pos h]
  · rw [if_neg h, if_neg h]

/-- C62: circuits without lines and targets outside the circuit are refused. -/
theorem C62_refused (gate : Arr2 ℂ) (size target : Nat) (dims : List Nat) (h : size ≤ target) :
    gateExpand gate size target dims = .error .valueError := by
  unfold gateExpand
  by_cases h1 : size < 1
  · rw [if_pos h1]
  · rw [if_neg h1, if_pos h]

example : ∃ A, gateExpand (Arr2.identity 3 : Arr2 ℂ) 3 1 [2, 3, 4] = .ok A ∧ A.rows = 24 := by
  obtain ⟨A, h1, h2, _⟩ := C62_expand ![2, 3, 4] 1 (Arr2.identity 3) rfl rfl
  exact ⟨A, by simpa using h1, by rw [h2]; simp [Fin.prod_univ_three]⟩

/-! ### C60 -/

namespace Variational

theorem foldlM_or {σ β : Type} (f : σ → β → Except PyErr σ) (P : σ → Prop) (e : PyErr) (l : List β)
    (h : ∀ a ∈ l, ∀ c, P c → (∃ c', f c a = .ok c' ∧ P c') ∨ f c a = .error e) :
    ∀ c, P c → (∃ c', l.foldlM f c = .ok c' ∧ P c') ∨ l.foldlM f c = .error e := by
  induction l with
  | nil => intro c hc; exact .inl ⟨c, rfl, hc⟩
  | cons a l ih =>
    intro c hc
    rw [List.foldlM_cons]
    rcases h a (List.mem_cons_self) c hc with ⟨c', h1, h2⟩ | h1
    · rw [h1]; exact ih (fun b hb => h b (List.mem_cons_of_mem _ hb)) c' h2
    · rw [h1]; exact .inr rfl

theorem foldlM_bad {σ β : Type} (f : σ → β → Except PyErr σ) (P : σ → Prop) (e : PyErr) (l : List β)
    (h : ∀ a ∈ l, ∀ c, P c → (∃ c', f c a = .ok c' ∧ P c') ∨ f c a = .error e)
    (a : β) (ha : a ∈ l) (hbad : ∀ c, P c → f c a = .error e) : ∀ c, P c → l.foldlM f c = .error e := by
  induction l with
  | nil => cases ha
  | cons b l ih =>
    intro c hc
    rw [List.foldlM_cons]
    by_cases hab : a = b
    · subst hab
      rw [hbad c hc]; rfl
    · rcases h b (List.mem_cons_self) c hc with ⟨c', h1, h2⟩ | h1
      · rw [h1]
        exact ih (fun b hb => h b (List.mem_cons_of_mem _ hb)) ((List.mem_cons.1 ha).resolve_left hab) c' h2
      · rw [h1]; rfl

theorem paramAt_or (p : List ℝ) (i : Nat) : (∃ x, paramAt p i = .ok x) ∨ paramAt p i = .error .indexError := by
  unfold paramAt
  cases p[i]? with
  | none => exact .inr rfl
  | some x => exact .inl ⟨x, rfl⟩

theorem paramAt_bad {p : List ℝ} {i : Nat} (h : p.length ≤ i) : paramAt p i = .error .indexError := by
  unfold paramAt
  rw [List.getElem?_eq_none h]

def Sq (d : Nat) (c : Arr2 ℂ) : Prop := c.rows = d ∧ c.cols = d

theorem sudDiag_or (p : List ℝ) (d l : Nat) (hl : l < d) (c : Arr2 ℂ) (hc : Sq d c) :
    (∃ c', sudDiag p d c l = .ok c' ∧ Sq d c') ∨ sudDiag p d c l = .error .indexError := by
  obtain ⟨z, z1, z2, _⟩ := zGen_ok hl (by omega : d - 1 < d)
  unfold sudDiag
  simp only [z1, bind, Except.bind]
  rcases paramAt_or p (reindex l l d) with ⟨x, hx⟩ | hx
  · obtain ⟨A, a1, a2, a3, _⟩ := timesExp_ok c z x hc.1 hc.2 z2
    rw [hx]; exact .inl ⟨A, a1, a2, a3⟩
  · rw [hx]; exact .inr rfl

theorem sudPair_or (p : List ℝ) (d m n : Nat) (hm : m < d) (hn : n < d) (c : Arr2 ℂ) (hc : Sq d c) :
    ((∃ c', sudPair p d m c n = .ok c' ∧ Sq d c') ∨ sudPair p d m c n = .error .indexError) ∧
    (p.length ≤ reindex n m d → sudPair p d m c n = .error .indexError) := by
  obtain ⟨z, z1, z2, _⟩ := zGen_ok hm hn
  obtain ⟨y, y1, y2, _⟩ := yGen_ok hm hn
  unfold sudPair
  simp only [z1, y1, bind, Except.bind]
  refine ⟨?_, fun h => by rw [paramAt_bad h]⟩
  rcases paramAt_or p (reindex n m d) with ⟨x, hx⟩ | hx
  · obtain ⟨A, a1, a2, a3, _⟩ := timesExp_ok c z x hc.1 hc.2 z2
    simp only [hx, a1]
    rcases paramAt_or p (reindex m n d) with ⟨w, hw⟩ | hw
    · obtain ⟨B, b1, b2, b3, _⟩ := timesExp_ok A y w a2 a3 y2
      rw [hw]; exact .inl ⟨B, b1, b2, b3⟩
    · rw [hw]; exact .inr rfl
  · rw [hx]; exact .inr rfl

theorem genericSud_short (p : List ℝ) (d : Nat) (h : p.length < d ^ 2 - 1) : genericSud p d = .error .indexError := by
  have hd : 2 ≤ d := by
    by_contra hd
    have : d = 0 ∨ d = 1 := by omega
    rcases this with rfl | rfl <;> simp at h
  unfold genericSud
  have h1 := foldlM_or (sudDiag p d) (Sq d) .indexError (List.range (d - 1))
    (fun a ha c hc => sudDiag_or p d a (by have := List.mem_range.1 ha; omega) c hc) (Arr2.identity d) ⟨rfl, rfl⟩
  rcases h1 with ⟨c, h1, hc⟩ | h1
  · simp only [h1, bind, Except.bind]
    refine foldlM_bad _ (Sq d) .indexError _ ?_ (d - 2) (List.mem_range.2 (by omega)) ?_ c hc
    · intro m hm c hc
      apply foldlM_or _ _ _ _ _ c hc
      intro n hn c hc
      rw [List.mem_range'_1] at hn
      exact (sudPair_or p d m n (by omega) (by omega) c hc).1
    · intro c hc
      have hmem : d - 1 ∈ List.range' (d - 2 + 1) (d - (d - 2 + 1)) := by
        rw [List.mem_range'_1]; omega
      refine foldlM_bad _ (Sq d) .indexError _ ?_ (d - 1) hmem ?_ c hc
      · intro n hn c hc
        rw [List.mem_range'_1] at hn
        exact (sudPair_or p d (d - 2) n (by omega) (by omega) c hc).1
      · intro c hc
        refine (sudPair_or p d (d - 2) (d - 1) (by omega) (by omega) c hc).2 ?_
        obtain ⟨k, rfl⟩ : ∃ k, d = k + 2 := ⟨d - 2, by omega⟩
        have e : (k + 2) ^ 2 = (k + 1) * (k + 2) + k + 2 := by ring
        unfold reindex
        rw [e] at h
        simp only [Nat.add_sub_cancel, show k + 2 - 1 = k + 1 by omega]
        omega
  · simp only [h1, bind, Except.bind]

end Variational

/-- C60: for every dimension `d`, `generic_sud` accepts exactly the parameter lists of at least `d² - 1` entries (shorter ones end in
an IndexError); the result is a special unitary `d × d` matrix, namely the product of the phases and plane rotations given by
the entries at the positions `r * d + c`. -/
theorem C60_special (p : List ℝ) (d : Nat) :
    (d ^ 2 - 1 ≤ p.length → ∃ A, genericSud p d = .ok A ∧ A.rows = d ∧ A.cols = d ∧
      A.toM d ∈ specialUnitaryGroup (Fin d) ℂ ∧ A.toM d = sudMatrix d fun r c => p.getD (r * d + c) 0) ∧
    (p.length < d ^ 2 - 1 → genericSud p d = .error .indexError) := by
  refine ⟨fun h => ?_, genericSud_short p d⟩
  obtain ⟨A, h1, h2, h3, h4⟩ := genericSud_ok p d h
  exact ⟨A, h1, h2, h3, by rw [h4]; exact sudMatrix_mem _ _, h4⟩

/-- C60 (reach): the `d² - 1` parameters do not reach every special unitary matrix. On a qubit the matrix
`(3/5, 4i/5; 4i/5, 3/5)` is special unitary, but no parameter list gives it, not even up to a global phase: the phase of the
only pair multiplies the phase of the diagonal, so one parameter is redundant. -/
theorem C60_reach_violated :
    (!![(3 / 5 : ℂ), 4 / 5 * Complex.I; 4 / 5 * Complex.I, 3 / 5]) ∈ specialUnitaryGroup (Fin 2) ℂ ∧
    ∀ p A, genericSud p 2 = .ok A → ∀ c : ℂ, A.toM 2 ≠ c • !![(3 / 5 : ℂ), 4 / 5 * Complex.I; 4 / 5 * Complex.I, 3 / 5] := by
  have hI : Complex.I * Complex.I = -1 := Complex.I_mul_I
  have s3 : (starRingEnd ℂ) 3 = 3 := map_ofNat _ 3
  have s4 : (starRingEnd ℂ) 4 = 4 := map_ofNat _ 4
  have s5 : (starRingEnd ℂ) 5 = 5 := map_ofNat _ 5
  refine ⟨?_, ?_⟩
  · rw [mem_specialUnitaryGroup_iff, mem_unitaryGroup_iff]
    constructor
    · ext i j
      fin_cases i <;> fin_cases j <;> simp [Matrix.mul_apply, Fin.sum_univ_two, star_eq_conjTranspose, s3, s4, s5] <;> ring_nf <;>
        (try rw [Complex.I_sq]) <;> norm_num
    · rw [det_fin_two_of]
      linear_combination (-16 / 25 : ℂ) * hI
  · intro p A hA c h
    have hp : 2 ^ 2 - 1 ≤ p.length := by
      by_contra hp
      rw [genericSud_short p 2 (by omega)] at hA
      cases hA
    obtain ⟨B, b1, _, _, b4⟩ := genericSud_ok p 2 hp
    rw [hA] at b1
    cases b1
    rw [b4, sud_two] at h
    set a := p.getD (0 * 2 + 0) 0
    set b := p.getD (1 * 2 + 0) 0
    set t := p.getD (0 * 2 + 1) 0
    have h00 := congrFun (congrFun h 0) 0
    have h01 := congrFun (congrFun h 0) 1
    simp [Matrix.mul_apply, Fin.sum_univ_two, phasePair, planeTurn] at h00 h01
    set E := Complex.exp (Complex.I * a) * Complex.exp (Complex.I * b) with hE
    have hE0 : E ≠ 0 := mul_ne_zero (Complex.exp_ne_zero _) (Complex.exp_ne_zero _)
    have e1 : E * (Real.cos t : ℂ) = c * (3 / 5) := by rw [hE, mul_assoc]; simpa using h00
    have e2 : E * (Real.sin t : ℂ) = c * (4 / 5 * Complex.I) := by rw [hE, mul_assoc]; simpa using h01
    have e3 : (Real.sin t : ℂ) * 3 = (Real.cos t : ℂ) * (4 * Complex.I) := by
      apply mul_left_cancel₀ hE0
      linear_combination 3 * e2 - 4 * Complex.I * e1
    have r1 := congrArg Complex.re e3
    have r2 := congrArg Complex.im e3
    simp [-Complex.ofReal_cos, -Complex.ofReal_sin] at r1 r2
    have := Real.cos_sq_add_sin_sq t
    rw [r1] at this
    rw [show Real.cos t = 0 by linarith] at this
    norm_num at this

example : ∃ A, genericSud (List.replicate 8 1) 3 = .ok A ∧ A.rows = 3 := by
  obtain ⟨A, h1, h2, _⟩ := (C60_special (List.replicate 8 1) 3).1 (by simp)
  exact ⟨A, h1, h2⟩

/-! ### C58 -/

/-- C58: whatever points the annealer visits and whenever the timer fires, what `solve_anneal` puts into the queue is either nothing
(a timeout) or a vector together with one minus its fidelity with the target; and if some visited point met the tolerance before the
timer fired, the vector in the queue meets it. -/
theorem C58_anneal (t : AnsatzType) (custom : Option (Arr2 ℂ)) (d0 d1 : Nat) (target : Arr2 ℂ) (tol : ℝ) (an : Annealer)
    (pts : List (List ℝ)) : ∀ (time : Nat) (q : Queued) (s : Solution),
    solveAnneal t custom d0 d1 target tol an time pts none = .ok (q, s) →
      (∀ e x, q = some (e, x) → ∃ A f, ansatzMatrix t custom d0 d1 x = .ok A ∧ fidelityOnUnitaries A target = .ok f ∧ e = 1 - f) ∧
      (∀ k x, k ≤ time → pts[k]? = some x →
        (∃ A f, ansatzMatrix t custom d0 d1 x = .ok A ∧ fidelityOnUnitaries A target = .ok f ∧ 1 - f < tol) →
        ∃ e y, q = some (e, y) ∧ e < tol) := by
  induction pts with
  | nil =>
    intro time q s h
    refine ⟨?_, by intro k x _ hx; simp at hx⟩
    intro e x hq
    simp only [solveAnneal, bind, Except.bind, pure, Except.pure] at h
    split at h
    · cases h
    rename_i A hA
    split at h
    · cases h
    rename_i f hf
    cases h
    cases hq
    exact ⟨A, f, hA, hf, rfl⟩
  | cons p ps ih =>
    intro time q s h
    simp only [solveAnneal, bind, Except.bind, pure, Except.pure] at h
    split at h
    · cases h
    rename_i A hA
    split at h
    · cases h
    rename_i o ho
    simp only [objFunCore, bind, Except.bind, pure, Except.pure] at ho
    split at ho
    · cases ho
    rename_i f hf
    by_cases h1 : 1 - f < tol
    · rw [if_pos h1] at ho
      cases ho
      cases h
      refine ⟨?_, fun k x _ _ _ => ⟨_, _, rfl, h1⟩⟩
      intro e x hq
      cases hq
      exact ⟨A, f, hA, hf, rfl⟩
    · rw [if_neg h1] at ho
      by_cases h2 : time = 0
      · rw [if_pos (by simpa using h2)] at ho
        cases ho
        cases h
        refine ⟨(by intro e x hq; cases hq), ?_⟩
        intro k x hk hx hm
        have hk0 : k = 0 := by omega
        subst hk0
        simp only [List.getElem?_cons_zero, Option.some.injEq] at hx
        subst hx
        obtain ⟨A', f', hA', hf', hlt⟩ := hm
        rw [hA] at hA'; cases hA'
        rw [hf] at hf'; cases hf'
        exact absurd hlt h1
      · rw [if_neg (by simpa using h2)] at ho
        cases ho
        obtain ⟨i1, i2⟩ := ih (time - 1) q s h
        refine ⟨i1, ?_⟩
        intro k x hk hx hm
        cases k with
        | zero =>
          simp only [List.getElem?_cons_zero, Option.some.injEq] at hx
          subst hx
          obtain ⟨A', f', hA', hf', hlt⟩ := hm
          rw [hA] at hA'; cases hA'
          rw [hf] at hf'; cases hf'
          exact absurd hlt h1
        | succ k =>
          exact i2 k x (by omega) (by simpa using hx) hm

/-- C58 (partial): if every run reports the true error of its vector (`C58_anneal`), then the compiled circuit is either empty (and the
run with half of the layers failed), or its gates have operators whose product *from left to right* has a fidelity with the target of
at least one minus the tolerance. Missing: the operator of the circuit is the product from right to left (`C45_order_violated`), and
a failed search should not return a circuit (`C58_empty_violated`). -/
theorem C58_within_partial (d : Fin 2 → Nat) (hd : ∀ i, 2 ≤ d i) (t : AnsatzType) (ht : t ≠ .other) (custom : Option AGate)
    (hcu : t = .cu → ∃ u, custom = some u ∧ PairGate d u) (target : Arr2 ℂ) (tol : ℝ) (layers : Nat) (run : Nat → ℝ × List ℝ)
    (hrun : ∀ k ≤ layers, ∃ A f, ansatzMatrix t (custom.map AGate.arr) (d 0) (d 1) (run k).2 = .ok A ∧
      fidelityOnUnitaries A target = .ok f ∧ (run k).1 = 1 - f) :
    ∃ gates, variationalCompile [d 0, d 1] 0 1 tol t layers custom run = .ok gates ∧
      ((gates = [] ∧ tol < (run (layers / 2)).1) ∨
        ∃ A Ms f, List.Forall₂ (fun (g : AGate) M => HasOperator d g.gate g.arr M) gates Ms ∧
          (∀ x y, A.at' (idx d x) (idx d y) = Ms.prod x y) ∧ A.rows = ∏ i, d i ∧ A.cols = ∏ i, d i ∧
          fidelityOnUnitaries A target = .ok f ∧ 1 - tol ≤ f) := by
  obtain ⟨r, h1, h2, _⟩ := C44_sound run [] tol layers
  have hpos : 0 < (d 0 ^ 2 - 1) + (d 1 ^ 2 - 1) := by
    have : 2 ^ 2 ≤ d 0 ^ 2 := Nat.pow_le_pow_left (hd 0) 2
    omega
  rcases h2 with ⟨k, hk, hle, rfl⟩ | ⟨hr, hlt⟩
  · obtain ⟨A, f, hA, hf, he⟩ := hrun k hk
    have hsplit : ∃ chunks, paramsSplitter (run k).2 [d 0, d 1] = .ok chunks := by
      simp only [ansatzMatrix, bind, Except.bind] at hA
      split at hA
      · cases hA
      · rename_i c hc; exact ⟨c, hc⟩
    obtain ⟨chunks, hs⟩ := hsplit
    obtain ⟨j, hj1, hj2⟩ := (C43_split (d 0) (d 1) hpos (run k).2 chunks).1 hs
    obtain ⟨u, B, gates, g1, g2, g3, g4, g5, g6, g7⟩ := instance_ok d hd t ht custom hcu j chunks hj2
    rw [hj1] at g2 g3
    rw [hA] at g2
    cases g2
    refine ⟨gates, ?_, .inr ⟨A, _, f, g6, fun x y => by rw [← g7]; rfl, g4, g5, hf, by linarith⟩⟩
    simp only [variationalCompile, dimAt, List.getElem?_cons_succ, List.getElem?_cons_zero, bind, Except.bind, h1, g3]
  · obtain ⟨u, B, gates, g1, g2, g3, g4, g5, g6, g7⟩ := instance_ok d hd t ht custom hcu 0 [] rfl
    have : gates = [] := by cases g6; rfl
    subst this
    refine ⟨[], ?_, .inl ⟨rfl, hlt⟩⟩
    simp only [variationalCompile, dimAt, List.getElem?_cons_succ, List.getElem?_cons_zero, bind, Except.bind, h1, hr]
    exact g3

/-- C58 does not hold: when no run meets the tolerance, the compiler does not fail, it returns the empty circuit, whatever the target
is. -/
theorem C58_empty_violated (d : Fin 2 → Nat) (hd : ∀ i, 2 ≤ d i) (t : AnsatzType) (ht : t ≠ .other) (custom : Option AGate)
    (hcu : t = .cu → ∃ u, custom = some u ∧ PairGate d u) (tol : ℝ) (layers : Nat) (run : Nat → ℝ × List ℝ)
    (hfail : ∀ k ≤ layers, tol < (run k).1) :
    variationalCompile [d 0, d 1] 0 1 tol t layers custom run = .ok [] := by
  obtain ⟨r, h1, _, h3⟩ := C44_sound run [] tol layers
  obtain ⟨u, B, gates, g1, g2, g3, g4, g5, g6, g7⟩ := instance_ok d hd t ht custom hcu 0 [] rfl
  have : gates = [] := by cases g6; rfl
  subst this
  simp only [variationalCompile, dimAt, List.getElem?_cons_succ, List.getElem?_cons_zero, bind, Except.bind, h1, h3 hfail]
  exact g3

/-- a run with one layer of the light-shift ansatz, whose own matrix is the target -/
example : ∃ (target : Arr2 ℂ) (run : Nat → ℝ × List ℝ),
    (∀ k ≤ 1, ∃ A f, ansatzMatrix .ls none 2 2 (run k).2 = .ok A ∧ fidelityOnUnitaries A target = .ok f ∧ (run k).1 = 1 - f) := by
  obtain ⟨A, gates, Ms, h1, _, _, _, h5, h6, _⟩ := C45_reversed_partial (fun _ => 2) (fun _ => le_refl 2) .ls (by decide) none (by simp) 3
    (List.replicate 18 0) (by simp)
  obtain ⟨m, m1, _⟩ := matmul_ok A.conjT A (∏ _i : Fin 2, 2) h6 h5 h5 h6
  refine ⟨A, fun _ => (1 - ‖trace m‖ / A.rows, List.replicate 18 0), fun _ _ => ⟨A, _, h1, ?_, rfl⟩⟩
  simp only [fidelityOnUnitaries, sizeCheck, h5, h6, and_self, decide_true, if_true, m1, bind, Except.bind, pure, Except.pure]

/-! ### C61 -/

namespace Variational

theorem sparse_cs (x : List ℝ) (m : ℝ) :
    0 ≤ (x.map fun a => |a| ^ 2).sum - 2 * m * (x.map fun a => |a|).sum + x.length * m ^ 2 := by
  induction x with
  | nil => simp
  | cons a x ih =>
    simp only [List.map_cons, List.sum_cons, List.length_cons, Nat.cast_add, Nat.cast_one]
    nlinarith [sq_nonneg (|a| - m)]

theorem sum_abs_nonneg (x : List ℝ) : 0 ≤ (x.map fun a => |a|).sum := by
  induction x with
  | nil => simp
  | cons a x ih => simp only [List.map_cons, List.sum_cons]; positivity

theorem sum_abs_zero (x : List ℝ) (h : (x.map fun a => |a|).sum = 0) : ∀ a ∈ x, a = 0 := by
  induction x with
  | nil => simp
  | cons a x ih =>
    simp only [List.map_cons, List.sum_cons] at h
    have h1 := sum_abs_nonneg x
    have h2 := abs_nonneg a
    intro b hb
    rcases List.mem_cons.1 hb with rfl | hb
    · exact abs_eq_zero.1 (by linarith)
    · exact ih (by linarith) b hb

theorem sparse_sq (x : List ℝ) :
    (x.map fun a => |a| ^ 2).sum ≤ (x.map fun a => |a|).sum ^ 2 ∧
    ((x.map fun a => |a| ^ 2).sum = (x.map fun a => |a|).sum ^ 2 ↔ (x.filter fun a => a ≠ 0).length ≤ 1) := by
  induction x with
  | nil => simp
  | cons a x ih =>
    obtain ⟨i1, i2⟩ := ih
    have h1 := sum_abs_nonneg x
    have h2 := abs_nonneg a
    simp only [List.map_cons, List.sum_cons]
    set S1 := (x.map fun a => |a|).sum with hS1
    set S2 := (x.map fun a => |a| ^ 2).sum with hS2
    have hm : 0 ≤ |a| * S1 := mul_nonneg h2 h1
    refine ⟨by nlinarith, ?_⟩
    by_cases ha : a = 0
    · subst ha
      simp only [abs_zero, ne_eq, not_true_eq_false, decide_false, Bool.false_eq_true, not_false_eq_true, List.filter_cons_of_neg]
      rw [← i2]
      constructor <;> intro h <;> nlinarith
    · rw [List.filter_cons_of_pos (by simpa using ha), List.length_cons]
      have hpa : 0 < |a| := abs_pos.2 ha
      constructor
      · intro h
        have h3 : |a| * S1 = 0 := by nlinarith
        have h4 : S1 = 0 := by
          rcases mul_eq_zero.1 h3 with h | h
          · exact absurd h (ne_of_gt hpa)
          · exact h
        have h5 := sum_abs_zero x h4
        have : x.filter (fun a => a ≠ 0) = [] := by
          rw [List.filter_eq_nil_iff]
          intro b hb
          simpa using h5 b hb
        rw [this]; simp
      · intro h
        have hf : x.filter (fun a => a ≠ 0) = [] := List.length_eq_zero_iff.1 (by omega)
        have h4 : ∀ b ∈ x, b = 0 := by
          rw [List.filter_eq_nil_iff] at hf
          intro b hb
          simpa using hf b hb
        have h5 : S1 = 0 := by
          rw [hS1]
          apply List.sum_eq_zero
          intro y hy
          obtain ⟨b, hb, rfl⟩ := List.mem_map.1 hy
          rw [h4 b hb]; simp
        have h6 : S2 = 0 := by
          rw [hS2]
          apply List.sum_eq_zero
          intro y hy
          obtain ⟨b, hb, rfl⟩ := List.mem_map.1 hy
          rw [h4 b hb]; simp
        rw [h5, h6]; ring

end Variational

/-- C61: for every array with at least two entries that are not all zero, `compute_f` gives a number between 0 and 1, and it is 0
exactly when a single entry is non-zero. Arrays with only zeros, or with one entry, are refused. -/
theorem C61_measure (x : List ℝ) :
    (2 ≤ x.length → (∃ a ∈ x, a ≠ 0) →
      ∃ f, computeF x = .ok f ∧ 0 ≤ f ∧ f ≤ 1 ∧ (f = 0 ↔ (x.filter fun a => a ≠ 0).length = 1)) ∧
    ((x.length = 1 ∨ ∀ a ∈ x, a = 0) → computeF x = .error .valueError) := by
  have hj : Real.sqrt (x.map fun _ => |(1 : ℝ)| ^ 2).sum = Real.sqrt x.length := by simp
  constructor
  · rintro h2 ⟨a, ha, ha0⟩
    have hn : (2 : ℝ) ≤ x.length := by exact_mod_cast h2
    set S1 := (x.map fun a => |a|).sum with hS1
    set S2 := (x.map fun a => |a| ^ 2).sum with hS2
    have h1 : 0 ≤ S1 := sum_abs_nonneg x
    obtain ⟨q1, q2⟩ := sparse_sq x
    rw [← hS1, ← hS2] at q1 q2
    have hS1pos : 0 < S1 := lt_of_le_of_ne h1 (fun h => ha0 (sum_abs_zero x h.symm a ha))
    have hcs := sparse_cs x (S1 / x.length)
    rw [← hS1, ← hS2] at hcs
    have hcs' : S1 ^ 2 ≤ x.length * S2 := by
      have e : S2 - 2 * (S1 / x.length) * S1 + x.length * (S1 / x.length) ^ 2 = S2 - S1 ^ 2 / x.length := by
        field_simp; ring
      rw [e] at hcs
      have : S1 ^ 2 / x.length ≤ S2 := by linarith
      rw [div_le_iff₀ (by linarith)] at this
      linarith
    have hS2pos : 0 < S2 := by
      by_contra h
      have : (x.length : ℝ) * S2 ≤ 0 := mul_nonpos_of_nonneg_of_nonpos (by linarith) (not_lt.1 h)
      nlinarith
    set R := Real.sqrt S2 with hR
    have hRpos : 0 < R := Real.sqrt_pos.2 hS2pos
    have hRsq : R ^ 2 = S2 := Real.sq_sqrt (le_of_lt hS2pos)
    set J := Real.sqrt x.length with hJ
    have hJsq : J ^ 2 = x.length := Real.sq_sqrt (by linarith)
    have hJ1 : 1 < J := by
      rw [hJ, Real.lt_sqrt (by norm_num)]; linarith
    have hden : 0 < J * R - R := by nlinarith
    have l1 : R ≤ S1 := by
      apply le_of_sq_le_sq _ h1
      rw [hRsq]; exact q1
    have l2 : S1 ≤ J * R := by
      apply le_of_sq_le_sq _ (by positivity)
      rw [mul_pow, hJsq, hRsq]; exact hcs'
    refine ⟨1 - (J * R - S1) / (J * R - R), ?_, ?_, ?_, ?_⟩
    · unfold computeF
      simp only
      rw [hj, ← hS1, ← hS2, ← hR, if_neg (ne_of_gt hden)]
    · rw [sub_nonneg, div_le_one hden]; linarith
    · have : 0 ≤ (J * R - S1) / (J * R - R) := div_nonneg (by linarith) (le_of_lt hden)
      linarith
    · rw [sub_eq_zero, eq_comm, div_eq_one_iff_eq (ne_of_gt hden)]
      have hpos : 1 ≤ (x.filter fun a => a ≠ 0).length := by
        apply List.length_pos_of_mem (a := a)
        rw [List.mem_filter]
        exact ⟨ha, by simpa using ha0⟩
      rw [show J * R - S1 = J * R - R ↔ R = S1 by constructor <;> intro h <;> linarith]
      rw [show R = S1 ↔ S2 = S1 ^ 2 by
        constructor
        · intro h; rw [← h, hRsq]
        · intro h; rw [hR, h, Real.sqrt_sq h1], q2]
      omega
  · intro h
    unfold computeF
    simp only
    rw [hj, if_pos]
    rcases h with h | h
    · rw [h]; simp
    · have : (x.map fun a => |a| ^ 2).sum = 0 := by
        apply List.sum_eq_zero
        intro y hy
        obtain ⟨b, hb, rfl⟩ := List.mem_map.1 hy
        rw [h b hb]; simp
      rw [this]; simp

example : ∃ f, computeF [0, 3, 0] = .ok f ∧ f = 0 := by
  obtain ⟨f, h1, _, _, h2⟩ := (C61_measure [0, 3, 0]).1 (by simp) ⟨3, by simp, by norm_num⟩
  exact ⟨f, h1, h2.2 (by simp)⟩

namespace Variational

theorem rotations_ok (d : Fin 2 → Nat) (hd : ∀ i, 2 ≤ d i) (g : AGate) (hg : PairGate d g) (k : Nat) (hk : 2 ≤ k)
    (chunks : List (List ℝ)) (hlen : chunks.map List.length = (List.replicate k [d 0 ^ 2 - 1, d 1 ^ 2 - 1]).flatten) :
    ∃ A gates, applyRotations g.arr chunks.flatten [d 0, d 1] = .ok A ∧
      instantiateRotations [d 0, d 1] g chunks.flatten [d 0, d 1] = .ok gates ∧
      gates.length = 5 ∧
      List.Forall₂ (fun (g : AGate) M => HasOperator d g.gate g.arr M) gates (opsFrom d (regM d g.arr) 0 (chunks.take 4)) ∧
      A.rows = ∏ i, d i ∧ A.cols = ∏ i, d i ∧ regM d A = (opsFrom d (regM d g.arr) 0 (chunks.take 4)).prod := by
  have hpos : 0 < (d 0 ^ 2 - 1) + (d 1 ^ 2 - 1) := by
    have : 2 ^ 2 ≤ d 0 ^ 2 := Nat.pow_le_pow_left (hd 0) 2
    omega
  have hsplit := (C43_split (d 0) (d 1) hpos chunks.flatten chunks).2 ⟨k, rfl, hlen⟩
  obtain ⟨j, rfl⟩ : ∃ j, k = j + 2 := ⟨k - 2, by omega⟩
  rw [List.replicate_succ, List.replicate_succ, List.flatten_cons, List.flatten_cons] at hlen
  obtain ⟨p0, p1, p2, p3, rest, hc⟩ : ∃ p0 p1 p2 p3 rest, chunks = p0 :: p1 :: p2 :: p3 :: rest := by
    match chunks, hlen with
    | [], h => simp at h
    | [_], h => simp at h
    | [_, _], h => simp at h
    | [_, _, _], h => simp at h
    | a :: b :: c :: e :: r, _ => exact ⟨a, b, c, e, r, rfl⟩
  rw [hc] at hlen hsplit
  simp only [List.map_cons, List.cons_append, List.nil_append, List.cons.injEq] at hlen
  obtain ⟨e0, e1, e2, e3, _⟩ := hlen
  obtain ⟨_, s0, r0, g0, a1, a2, a3, a4, a5, a6, a7, a8⟩ := local_ok d 0 (by omega) p0 (by simpa using le_of_eq e0.symm)
  obtain ⟨_, s1, r1, g1, b1, b2, b3, b4, b5, b6, b7, b8⟩ := local_ok d 1 (by omega) p1 (by simpa using le_of_eq e1.symm)
  obtain ⟨_, s2, r2, g2, c1, c2, c3, c4, c5, c6, c7, c8⟩ := local_ok d 0 (by omega) p2 (by simpa using le_of_eq e2.symm)
  obtain ⟨_, s3, r3, g3, f1, f2, f3, f4, f5, f6, f7, f8⟩ := local_ok d 1 (by omega) p3 (by simpa using le_of_eq e3.symm)
  cases a1; cases b1; cases c1; cases f1
  have hprod : ∏ i, d i = d 0 * d 1 := by simp [Fin.prod_univ_two]
  obtain ⟨m1, x1, x2, x3, x4⟩ := matmul_reg d r0 r1 a4 a5 b4 b5
  obtain ⟨m2, y1, y2, y3, y4⟩ := matmul_reg d m1 g.arr x2 x3 (by rw [hg.2.2.2.2.1, hprod]) (by rw [hg.2.2.2.2.2, hprod])
  obtain ⟨m3, z1, z2, z3, z4⟩ := matmul_reg d m2 r2 y2 y3 c4 c5
  obtain ⟨m4, w1, w2, w3, w4⟩ := matmul_reg d m3 r3 z2 z3 f4 f5
  have hops : opsFrom d (regM d g.arr) 0 (chunks.take 4) =
      [localOp d 0 p0, localOp d 1 p1, regM d g.arr, localOp d 0 p2, localOp d 1 p3] := by
    rw [hc]
    simp only [List.take_succ_cons, List.take_zero, opsFrom, OfNat.zero_ne_ofNat, if_false, Nat.zero_add, OfNat.one_ne_ofNat,
      Nat.reduceAdd, if_true]
  rw [hops]
  refine ⟨m4, [g0, g1, g, g2, g3], ?_, ?_, rfl,
    .cons a8 (.cons b8 (.cons (pairGate_op d g hg) (.cons c8 (.cons f8 .nil)))), w2, w3, ?_⟩
  · rw [hc]
    simp only [applyRotations, hsplit, dimAt, List.getElem?_cons_succ, List.getElem?_cons_zero, bind, Except.bind, a2, a3, b2, b3, c2, c3,
      f2, f3, x1, y1, z1, w1]
  · rw [hc]
    simp only [instantiateRotations, hsplit, dimAt, List.getElem?_cons_succ, List.getElem?_cons_zero, bind, Except.bind, a2, a7, b2, b7,
      c2, c7, f2, f7, pure, Except.pure]
  · rw [w4, z4, y4, x4, a6, b6, c6, f6]
    simp only [List.prod_cons, List.prod_nil, mul_one, Matrix.mul_assoc]

end Variational

/-- C61 (partial): for every gate on two lines and all parameters for two pairs of local unitaries (further ones are ignored), the
matrix whose sparsity is scored is the product of the operators of the emitted gates from left to right. Missing: it should be the
operator of the emitted circuit, which is the product from right to left (`C61_order_violated`). -/
theorem C61_rotations_partial (d : Fin 2 → Nat) (hd : ∀ i, 2 ≤ d i) (g : AGate) (hg : PairGate d g) (k : Nat) (hk : 2 ≤ k)
    (p : List ℝ) (hp : p.length = k * ((d 0 ^ 2 - 1) + (d 1 ^ 2 - 1))) :
    ∃ A gates Ms, applyRotations g.arr p [d 0, d 1] = .ok A ∧ instantiateRotations [d 0, d 1] g p [d 0, d 1] = .ok gates ∧
      gates.length = 5 ∧ List.Forall₂ (fun (g : AGate) M => HasOperator d g.gate g.arr M) gates Ms ∧
      A.rows = ∏ i, d i ∧ A.cols = ∏ i, d i ∧ ∀ x y, A.at' (idx d x) (idx d y) = Ms.prod x y := by
  have hs := chunks_spec (d 0 ^ 2 - 1) (d 1 ^ 2 - 1) k p hp
  obtain ⟨A, gates, h1, h2, h3, h4, h5, h6, h7⟩ := rotations_ok d hd g hg k hk _ hs.2
  rw [hs.1] at h1 h2
  exact ⟨A, gates, _, h1, h2, h3, h4, h5, h6, fun x y => by rw [← h7]; rfl⟩

/-- C61 (order): there are a gate on two qubits and parameters for which the scored matrix is not the operator of the emitted circuit,
not even up to a global phase. -/
theorem C61_order_violated :
    ∃ (g : AGate) (p : List ℝ) (A : Arr2 ℂ) (gates : List AGate), PairGate (fun _ => 2) g ∧
      applyRotations g.arr p [2, 2] = .ok A ∧ instantiateRotations [2, 2] g p [2, 2] = .ok gates ∧
      ∃ Ms, List.Forall₂ (fun (g : AGate) M => HasOperator (fun _ : Fin 2 => 2) g.gate g.arr M) gates Ms ∧
        ¬ ∃ c : ℂ, ∀ x y : Reg (fun _ : Fin 2 => 2), A.at' (idx _ x) (idx _ y) = c * Ms.reverse.prod x y := by
  obtain ⟨m, m1, m2, m3, m4⟩ := lsArray_ok 2 2 (Real.pi / 2)
  have hg : PairGate (fun _ => 2) ⟨⟨[2, 2], "LS", .two, .many [0, 1], none, false, false⟩, m⟩ := ⟨rfl, rfl, rfl, rfl, m2, m3⟩
  obtain ⟨A, gates, h1, h2, h3, h4, h5, h6, h7⟩ := rotations_ok (fun _ : Fin 2 => 2) (fun _ => le_refl 2) _ hg 2 (le_refl 2)
    [[0, 0, 0], [0, 0, 0], [0, Real.pi / 2, 0], [0, 0, 0]] (by simp [List.replicate])
  refine ⟨_, _, A, gates, hg, h1, h2, _, h4, ?_⟩
  rintro ⟨c, hc⟩
  refine order_witness m m4 ⟨c, fun x y => ?_⟩
  have := hc x y
  rw [show A.at' (idx (fun _ : Fin 2 => 2) x) (idx (fun _ : Fin 2 => 2) y) = regM (fun _ : Fin 2 => 2) A x y from rfl, h7] at this
  exact this

end Qudits
