import Verif.Lemmas.EmbedErr
import Verif.Lemmas.RegisterEmbed
import Verif.Lemmas.Dirac
import Mathlib.Analysis.Complex.Basic

/-
Properties C05 (adjoint mark), C12 (embedding), C13 (controls) and C14 (mixed-radix indexing).
-/
namespace Qudits
open Spec Matrix

variable {n : Nat} {α : Type}

/-! ### C12 -/

/-- C12, `identities=2`: the array returned for an uncontrolled gate on the distinct lines `ts` of a
register with dimensions `d` is the operator acting with the gate's array on these lines (levels of the
lines in ascending order) and as the identity elsewhere. -/
theorem C12_full_register [Semiring α] [Star α] (d : Fin n → Nat) (g : Gate) (ts : List (Fin n))
    (arr : Arr2 α) (hdims : g.dims = List.ofFn d)
    (hT : g.target.lines = ts.map fun i : Fin n => ((i : Nat) : Int))
    (hctl : g.controls = none) (hnd : ts.Nodup) (hne : ts ≠ [])
    (hr : arr.rows = ∏ i ∈ ts.toFinset, d i) (hc : arr.cols = ∏ i ∈ ts.toFinset, d i) :
    ∃ A, g.toMatrix arr 2 = .ok A ∧ A.rows = ∏ i, d i ∧ A.cols = ∏ i, d i ∧
      ∀ x y, A.at' (idx d x) (idx d y) =
        embed ts.toFinset (onLines d ts.toFinset (if g.dagger then arr.conjT else arr).at') x y :=
  embed_full d g ts arr hdims hT hctl hnd hne hr hc

/-- C12, `identities=1`: the same on the contiguous block of lines (dimensions `d`) from the lowest to
the highest target, anywhere inside a larger circuit. -/
theorem C12_block [Semiring α] [Star α] (d : Fin n → Nat) (pre post : List Nat) (g : Gate)
    (ts : List (Fin n)) (arr : Arr2 α) (hdims : g.dims = pre ++ List.ofFn d ++ post)
    (hT : g.target.lines = ts.map fun i : Fin n => ((pre.length + i.1 : Nat) : Int))
    (hctl : g.controls = none) (hnd : ts.Nodup)
    (hfirst : ∃ i ∈ ts, i.1 = 0) (hlast : ∃ i ∈ ts, i.1 + 1 = n)
    (hr : arr.rows = ∏ i ∈ ts.toFinset, d i) (hc : arr.cols = ∏ i ∈ ts.toFinset, d i) :
    ∃ A, g.toMatrix arr 1 = .ok A ∧ A.rows = ∏ i, d i ∧ A.cols = ∏ i, d i ∧
      ∀ x y, A.at' (idx d x) (idx d y) =
        embed ts.toFinset (onLines d ts.toFinset (if g.dagger then arr.conjT else arr).at') x y :=
  embed_block d pre post g ts arr hdims hT hctl hnd hfirst hlast hr hc

/-- C12: embedding respects products, adjoints and the identity. -/
theorem C12_embed_algebra [CommRing α] [StarRing α] (d : Fin n → Nat) (S : Finset (Fin n))
    (a b : Matrix (SubLv (LvOf d) S) (SubLv (LvOf d) S) α) :
    embed S (a * b) = embed S a * embed S b ∧ embed S aᴴ = (embed S a)ᴴ ∧
    embed S (1 : Matrix (SubLv (LvOf d) S) (SubLv (LvOf d) S) α) = 1 :=
  ⟨(embed_mul S a b).symm, (embed_conjTranspose S a).symm, embed_one S⟩

/-- C12: the full-register array of a unitary gate is unitary. -/
theorem C12_unitary [CommRing α] [StarRing α] (d : Fin n → Nat) (g : Gate) (ts : List (Fin n))
    (arr A : Arr2 α) (hdims : g.dims = List.ofFn d)
    (hT : g.target.lines = ts.map fun i : Fin n => ((i : Nat) : Int))
    (hctl : g.controls = none) (hnd : ts.Nodup) (hne : ts ≠ [])
    (hr : arr.rows = ∏ i ∈ ts.toFinset, d i) (hc : arr.cols = ∏ i ∈ ts.toFinset, d i)
    (hU : arr.toM (∏ i ∈ ts.toFinset, d i) ∈ unitaryGroup (Fin (∏ i ∈ ts.toFinset, d i)) α)
    (hA : g.toMatrix arr 2 = .ok A) :
    A.toM (∏ i, d i) ∈ unitaryGroup (Fin (∏ i, d i)) α := by
  obtain ⟨A', hA', _, _, hAe⟩ := C12_full_register d g ts arr hdims hT hctl hnd hne hr hc
  rw [hA] at hA'
  have := Except.ok.inj hA'
  subst this
  rw [← submatrix_mem_unitary (idxEquiv d), toM_eq_of_idx d A _ hAe]
  apply embed_mem_unitary
  rw [onLines_eq, submatrix_mem_unitary]
  by_cases hd : g.dagger
  · simp only [hd, if_true]
    have : arr.conjT.toM (∏ i ∈ ts.toFinset, d i) = star (arr.toM (∏ i ∈ ts.toFinset, d i)) := rfl
    rw [this]
    exact Unitary.star_mem hU
  · simpa [hd] using hU

/-- a two-line gate with numbers as entries, on lines 2 and 0 of a register of dimensions 2, 3, 2 -/
example : (Gate.toMatrix (α := ℂ) ⟨[2, 3, 2], "G", .two, .many [2, 0], none, false, true⟩
    ⟨4, 4, fun r c => (r + 10 * c : ℂ)⟩ 2).isOk = true := by
  obtain ⟨A, hA, _⟩ := C12_full_register (n := 3) ![2, 3, 2]
    ⟨[2, 3, 2], "G", .two, .many [2, 0], none, false, true⟩ [2, 0] (⟨4, 4, fun r c => (r + 10 * c : ℂ)⟩ : Arr2 ℂ)
    (by decide) (by decide) rfl (by decide) (by decide) (by decide) (by decide)
  rw [hA]; rfl

/-! ### C13 -/

/-- C13, part that holds: if the target line plus the lowest line of the gate does not exceed its
highest line, and the line with that number is at least as large as the target (in particular when line
0 takes part), the array is the controlled operator.
Missing from the full claim: the other line arrangements, for which `to_matrix` raises (below). -/
theorem C13_controlled_partial [Semiring α] [Star α] (d : Fin n → Nat) (g : Gate) (t : Fin n)
    (cs : List (Fin n)) (lev : Reg d) (arr : Arr2 α) (lo hi : Fin n)
    (hdims : g.dims = List.ofFn d) (ht : g.target = .one (t : Nat))
    (hctl : g.controls = some ⟨cs.map fun c : Fin n => ((c : Nat) : Int),
      cs.map fun c : Fin n => ((lev c : Nat) : Int)⟩)
    (hne : cs ≠ []) (htc : t ∉ cs)
    (hlo : lo ∈ cs ++ [t]) (hlo' : ∀ c ∈ cs ++ [t], lo ≤ c)
    (hhi : hi ∈ cs ++ [t]) (hhi' : ∀ c ∈ cs ++ [t], c ≤ hi)
    (hfit : t.1 + lo.1 ≤ hi.1) (hle : ∀ h : t.1 + lo.1 < n, d t ≤ d ⟨t.1 + lo.1, h⟩)
    (hr : arr.rows = d t) (hc : arr.cols = d t) :
    ∃ A, g.toMatrix arr 2 = .ok A ∧ A.rows = ∏ i, d i ∧ A.cols = ∏ i, d i ∧
      ∀ x y, A.at' (idx d x) (idx d y) =
        controlled cs.toFinset lev
          (embed1 t (fun a b : Fin (d t) => (if g.dagger then arr.conjT else arr).at' a b)) x y :=
  ctrl_full d g t cs lev arr lo hi hdims ht hctl hne htc hlo hlo' hhi hhi' hfit hle hr hc

/-- C13: whenever line 0 takes part (as target or control) the claim holds in full. -/
theorem C13_controlled_line0_partial [Semiring α] [Star α] (d : Fin (n + 1) → Nat) (g : Gate)
    (t : Fin (n + 1)) (cs : List (Fin (n + 1))) (lev : Reg d) (arr : Arr2 α)
    (hdims : g.dims = List.ofFn d) (ht : g.target = .one (t : Nat))
    (hctl : g.controls = some ⟨cs.map fun c : Fin (n + 1) => ((c : Nat) : Int),
      cs.map fun c : Fin (n + 1) => ((lev c : Nat) : Int)⟩)
    (hne : cs ≠ []) (htc : t ∉ cs) (h0 : 0 ∈ cs ++ [t])
    (hr : arr.rows = d t) (hc : arr.cols = d t) :
    ∃ A, g.toMatrix arr 2 = .ok A ∧ A.rows = ∏ i, d i ∧ A.cols = ∏ i, d i ∧
      ∀ x y, A.at' (idx d x) (idx d y) =
        controlled cs.toFinset lev
          (embed1 t (fun a b : Fin (d t) => (if g.dagger then arr.conjT else arr).at' a b)) x y := by
  have hne' : (cs ++ [t]).toFinset.Nonempty := ⟨0, List.mem_toFinset.2 h0⟩
  have hmax := Finset.max'_mem (cs ++ [t]).toFinset hne'
  refine C13_controlled_partial d g t cs lev arr 0 ((cs ++ [t]).toFinset.max' hne') hdims ht hctl hne htc
    h0 (fun c _ => Fin.zero_le c) (List.mem_toFinset.1 hmax)
    (fun c hc => Finset.le_max' _ c (List.mem_toFinset.2 hc)) ?_ (fun _ => le_of_eq rfl) hr hc
  have : t ≤ (cs ++ [t]).toFinset.max' hne' := Finset.le_max' _ t (by simp)
  simpa using this

/-- C13: a controlled unitary is unitary. -/
theorem C13_unitary_partial [CommRing α] [StarRing α] (d : Fin n → Nat) (g : Gate) (t : Fin n)
    (cs : List (Fin n)) (lev : Reg d) (arr A : Arr2 α) (lo hi : Fin n)
    (hdims : g.dims = List.ofFn d) (ht : g.target = .one (t : Nat))
    (hctl : g.controls = some ⟨cs.map fun c : Fin n => ((c : Nat) : Int),
      cs.map fun c : Fin n => ((lev c : Nat) : Int)⟩)
    (hne : cs ≠ []) (htc : t ∉ cs)
    (hlo : lo ∈ cs ++ [t]) (hlo' : ∀ c ∈ cs ++ [t], lo ≤ c)
    (hhi : hi ∈ cs ++ [t]) (hhi' : ∀ c ∈ cs ++ [t], c ≤ hi)
    (hfit : t.1 + lo.1 ≤ hi.1) (hle : ∀ h : t.1 + lo.1 < n, d t ≤ d ⟨t.1 + lo.1, h⟩)
    (hr : arr.rows = d t) (hc : arr.cols = d t)
    (hU : arr.toM (d t) ∈ unitaryGroup (Fin (d t)) α) (hA : g.toMatrix arr 2 = .ok A) :
    A.toM (∏ i, d i) ∈ unitaryGroup (Fin (∏ i, d i)) α := by
  obtain ⟨A', hA', _, _, hAe⟩ :=
    C13_controlled_partial d g t cs lev arr lo hi hdims ht hctl hne htc hlo hlo' hhi hhi' hfit hle hr hc
  rw [hA] at hA'
  have := Except.ok.inj hA'
  subst this
  rw [← submatrix_mem_unitary (idxEquiv d), toM_eq_of_idx d A _ hAe]
  apply controlled_mem_unitary _ _ _ (by simpa using htc)
  by_cases hd : g.dagger
  · simp only [hd, if_true]
    exact Unitary.star_mem (U := arr.toM (d t)) hU
  · simp only [hd]
    exact hU

/-- C13 fails: for every controlled gate whose target line plus lowest line exceeds its highest line
(for example any gate with the target as highest line and no line 0), `to_matrix` raises IndexError. -/
theorem C13_high_target_violated [Semiring α] [Star α] (g : Gate) (arr : Arr2 α) (t : Nat) (cs : List Nat)
    (levels : List Int) (ids lo hi : Nat)
    (ht : g.target = .one t) (hctl : g.controls = some ⟨cs.map fun c : Nat => (c : Int), levels⟩)
    (hlt : ∀ c ∈ cs ++ [t], c < g.dims.length)
    (hlo : lo ∈ cs ++ [t]) (hlo' : ∀ c ∈ cs ++ [t], lo ≤ c)
    (hhi : hi ∈ cs ++ [t]) (hhi' : ∀ c ∈ cs ++ [t], c ≤ hi)
    (hbad : hi < t + lo) :
    g.toMatrix arr ids = .error .indexError := by
  apply toMatrix_ctrl_error g arr t cs levels ids ht hctl hlt
  set s := (cs ++ [t]).insertionSort (· ≤ ·) with hsd
  have hperm : s.Perm (cs ++ [t]) := List.perm_insertionSort _ _
  have hsne : s ≠ [] := by
    intro h
    have := hperm.length_eq
    rw [h] at this; simp at this
  obtain ⟨_, _, hbnd, hmemlo, hmemhi⟩ := sorted_bounds s (List.pairwise_insertionSort _ _) hsne
  have h1 := (hbnd lo (hperm.mem_iff.2 hlo)).1
  have h2 := (hbnd hi (hperm.mem_iff.2 hhi)).2
  have h3 := hlo' _ (hperm.mem_iff.1 hmemlo)
  have h4 := hhi' _ (hperm.mem_iff.1 hmemhi)
  omega

/-- C13 fails: in the other arrangements, where the line whose number is the target plus the lowest line is looked up in the place of the target, `to_matrix`
raises KeyError if that line has fewer levels than the target. -/
theorem C13_large_target_violated [Semiring α] [Star α] (d : Fin n → Nat) (g : Gate) (t : Fin n) (cs : List (Fin n))
    (lev : Reg d) (arr : Arr2 α) (lo hi : Fin n)
    (hdims : g.dims = List.ofFn d) (ht : g.target = .one (t : Nat))
    (hctl : g.controls = some ⟨cs.map fun c : Fin n => ((c : Nat) : Int), cs.map fun c : Fin n => ((lev c : Nat) : Int)⟩)
    (hne : cs ≠ []) (htc : t ∉ cs)
    (hlo : lo ∈ cs ++ [t]) (hlo' : ∀ c ∈ cs ++ [t], lo ≤ c)
    (hhi : hi ∈ cs ++ [t]) (hhi' : ∀ c ∈ cs ++ [t], c ≤ hi)
    (hfit : t.1 + lo.1 ≤ hi.1) (hlt : t.1 + lo.1 < n) (hle : d ⟨t.1 + lo.1, hlt⟩ < d t)
    (hr : arr.rows = d t) (hc : arr.cols = d t) (ids : Nat) : g.toMatrix arr ids = .error .keyError :=
  toMatrix_ctrl_keyError d g t cs lev arr lo hi hdims ht hctl hne htc hlo hlo' hhi hhi' hfit hlt hle hr hc ids

/-- C13: the cases above are all. An array is returned exactly if the target plus the lowest line does not exceed the highest line of the gate and the line with
that number has at least as many levels as the target; it is the controlled operator then, so no wrong array is ever returned. -/
theorem C13_exact [Semiring α] [Star α] (d : Fin n → Nat) (g : Gate) (t : Fin n) (cs : List (Fin n))
    (lev : Reg d) (arr : Arr2 α) (lo hi : Fin n)
    (hdims : g.dims = List.ofFn d) (ht : g.target = .one (t : Nat))
    (hctl : g.controls = some ⟨cs.map fun c : Fin n => ((c : Nat) : Int), cs.map fun c : Fin n => ((lev c : Nat) : Int)⟩)
    (hne : cs ≠ []) (htc : t ∉ cs)
    (hlo : lo ∈ cs ++ [t]) (hlo' : ∀ c ∈ cs ++ [t], lo ≤ c)
    (hhi : hi ∈ cs ++ [t]) (hhi' : ∀ c ∈ cs ++ [t], c ≤ hi)
    (hr : arr.rows = d t) (hc : arr.cols = d t) :
    ((∃ A, g.toMatrix arr 2 = .ok A) ↔ t.1 + lo.1 ≤ hi.1 ∧ ∃ h : t.1 + lo.1 < n, d t ≤ d ⟨t.1 + lo.1, h⟩) ∧
    ∀ A, g.toMatrix arr 2 = .ok A → A.rows = ∏ i, d i ∧ A.cols = ∏ i, d i ∧
      ∀ x y, A.at' (idx d x) (idx d y) =
        controlled cs.toFinset lev (embed1 t (fun a b : Fin (d t) => (if g.dagger then arr.conjT else arr).at' a b)) x y := by
  have hlt : t.1 + lo.1 ≤ hi.1 → t.1 + lo.1 < n := fun h => lt_of_le_of_lt h hi.2
  have key : ∀ A, g.toMatrix arr 2 = .ok A → t.1 + lo.1 ≤ hi.1 ∧ ∃ h : t.1 + lo.1 < n, d t ≤ d ⟨t.1 + lo.1, h⟩ := by
    intro A hA
    by_cases h1 : t.1 + lo.1 ≤ hi.1
    · refine ⟨h1, hlt h1, ?_⟩
      by_contra h2
      rw [C13_large_target_violated d g t cs lev arr lo hi hdims ht hctl hne htc hlo hlo' hhi hhi' h1 (hlt h1) (by omega) hr hc 2] at hA
      cases hA
    · rw [C13_high_target_violated g arr t.1 (cs.map Fin.val) (cs.map fun c : Fin n => ((lev c : Nat) : Int)) 2 lo.1 hi.1 ht
        (by rw [hctl, List.map_map]; rfl) (by
          intro c hc
          rw [hdims, List.length_ofFn]
          rcases List.mem_append.1 hc with hc | hc
          · obtain ⟨i, _, rfl⟩ := List.mem_map.1 hc
            exact i.2
          · rw [List.mem_singleton.1 hc]
            exact t.2) (by
          rcases List.mem_append.1 hlo with h | h
          · exact List.mem_append_left _ (List.mem_map_of_mem h)
          · rw [List.mem_singleton.1 h]
            simp) (by
          intro c hc
          rcases List.mem_append.1 hc with hc | hc
          · obtain ⟨i, hi, rfl⟩ := List.mem_map.1 hc
            exact hlo' i (List.mem_append_left _ hi)
          · rw [List.mem_singleton.1 hc]
            exact hlo' t (by simp)) (by
          rcases List.mem_append.1 hhi with h | h
          · exact List.mem_append_left _ (List.mem_map_of_mem h)
          · rw [List.mem_singleton.1 h]
            simp) (by
          intro c hc
          rcases List.mem_append.1 hc with hc | hc
          · obtain ⟨i, hi, rfl⟩ := List.mem_map.1 hc
            exact hhi' i (List.mem_append_left _ hi)
          · rw [List.mem_singleton.1 hc]
            exact hhi' t (by simp)) (by omega)] at hA
      cases hA
  constructor
  · constructor
    · rintro ⟨A, hA⟩
      exact key A hA
    · rintro ⟨h1, _, h2⟩
      obtain ⟨A, hA, -⟩ := C13_controlled_partial d g t cs lev arr lo hi hdims ht hctl hne htc hlo hlo' hhi hhi' h1 (fun _ => h2) hr hc
      exact ⟨A, hA⟩
  · intro A hA
    obtain ⟨h1, _, h2⟩ := key A hA
    obtain ⟨B, hB, h3⟩ := C13_controlled_partial d g t cs lev arr lo hi hdims ht hctl hne htc hlo hlo' hhi hhi' h1 (fun _ => h2) hr hc
    rw [hA] at hB
    cases hB
    exact h3

/-- Line 1, a ququart, controlled by line 3: the levels are taken from line 2, a qubit. -/
example (arr : Arr2 ℂ) (hr : arr.rows = 4) (hc : arr.cols = 4) :
    (⟨[2, 4, 2, 2], "X", .two, .one 1, some ⟨[3], [1]⟩, false, false⟩ : Gate).toMatrix arr 0 = .error .keyError :=
  C13_large_target_violated (n := 4) ![2, 4, 2, 2] _ 1 [3] (fun i => ⟨![0, 0, 0, 1] i, by revert i; decide⟩) arr 1 3 (by decide) rfl (by decide) (by decide) (by decide)
    (by decide) (by decide) (by decide) (by decide) (by decide) (by decide) (by decide) hr hc 0

/-- X on line 2 controlled by line 1 of a three-line circuit. -/
example (arr : Arr2 ℂ) : (⟨[2, 2, 3], "X", .two, .one 2, some ⟨[1], [1]⟩, false, false⟩ : Gate).toMatrix arr 0
    = .error .indexError :=
  C13_high_target_violated _ arr 2 [1] [1] 0 1 2 rfl rfl (by decide) (by decide) (by decide) (by decide)
    (by decide) (by decide)

/-- Line 1 controlled by line 2 at level 2 and line 0 at level 1. -/
example : (Gate.toMatrix (α := ℂ) ⟨[2, 3, 3], "X", .multi, .one 1, some ⟨[2, 0], [2, 1]⟩, false, false⟩
    ⟨3, 3, fun r c => if r = (c + 1) % 3 then 1 else 0⟩ 2).isOk = true := by
  obtain ⟨A, hA, _⟩ := C13_controlled_line0_partial (α := ℂ) (n := 2) ![2, 3, 3]
    ⟨[2, 3, 3], "X", .multi, .one 1, some ⟨[2, 0], [2, 1]⟩, false, false⟩ 1 [2, 0]
    (Fin.cons (1 : Fin 2) (Fin.cons (0 : Fin 3) (Fin.cons (2 : Fin 3) finZeroElim)))
    ⟨3, 3, fun r c => if r = (c + 1) % 3 then 1 else 0⟩ (by decide) (by decide) (by decide) (by decide)
    (by decide) (by decide) rfl rfl
  rw [hA]; rfl

/-! ### C05 -/

/-- C05, part that holds: one `dag()` call on a gate turns each array returned by `to_matrix` into its
conjugate transpose (raw array, and full-register array of an uncontrolled gate). -/
theorem C05_dag_adjoint_partial [CommRing α] [StarRing α] (d : Fin n → Nat) (g : Gate) (ts : List (Fin n))
    (arr A B : Arr2 α) (hnew : g.dagger = false) (hdims : g.dims = List.ofFn d)
    (hT : g.target.lines = ts.map fun i : Fin n => ((i : Nat) : Int))
    (hctl : g.controls = none) (hnd : ts.Nodup) (hne : ts ≠ [])
    (hr : arr.rows = ∏ i ∈ ts.toFinset, d i) (hc : arr.cols = ∏ i ∈ ts.toFinset, d i)
    (ids : Nat) (hids : ids = 0 ∨ ids = 2)
    (hA : g.toMatrix arr ids = .ok A) (hB : g.dag.toMatrix arr ids = .ok B) :
    ∀ (k : Nat), k = A.rows → B.toM k = (A.toM k)ᴴ := by
  rintro k rfl
  rcases hids with rfl | rfl
  · have hlen : ¬ (g.controlLines ++ g.target.lines).length = 0 := by
      rw [hT]; simp [hne]
    have h1 : A = arr := by
      unfold Gate.toMatrix Gate.referenceLines at hA
      simp only [hnew, if_neg hlen, hctl, bind, Except.bind] at hA
      exact (Except.ok.inj hA).symm
    have h2 : B = arr.conjT := by
      unfold Gate.toMatrix Gate.referenceLines at hB
      simp only [Gate.dag, Gate.controlLines, if_true, hctl, bind, Except.bind] at hB
      rw [if_neg (by simpa [Gate.controlLines, hctl] using hlen)] at hB
      exact (Except.ok.inj hB).symm
    subst h1; subst h2
    rfl
  · obtain ⟨A', hA', hAr, _, hAe⟩ := C12_full_register d g ts arr hdims hT hctl hnd hne hr hc
    obtain ⟨B', hB', _, _, hBe⟩ := C12_full_register d g.dag ts arr hdims hT hctl hnd hne hr hc
    rw [hA] at hA'; rw [hB] at hB'
    have e1 := Except.ok.inj hA'; have e2 := Except.ok.inj hB'
    subst e1; subst e2
    rw [hAr]
    simp only [hnew] at hAe
    have hBe' : ∀ x y, B.at' (idx d x) (idx d y) =
        (embed ts.toFinset (onLines d ts.toFinset arr.at'))ᴴ x y := by
      intro x y
      rw [hBe, embed_conjTranspose]; rfl
    have hA2 := toM_eq_of_idx d A _ hAe
    have hB2 := toM_eq_of_idx d B _ hBe'
    have : (B.toM (∏ i, d i)).submatrix (idxEquiv d) (idxEquiv d) =
        ((A.toM (∏ i, d i))ᴴ).submatrix (idxEquiv d) (idxEquiv d) := by
      rw [hB2, ← conjTranspose_submatrix, hA2]; rfl
    have h3 := congrArg (fun M => M.submatrix (idxEquiv d).symm (idxEquiv d).symm) this
    simpa using h3

/-- C05: any positive number of `dag()` calls has the effect of one on every array, controlled or not. -/
theorem C05_dag_repeated_partial [Semiring α] [Star α] (g : Gate) (arr : Arr2 α) (ids k : Nat) :
    (Gate.dag^[k + 1] g).toMatrix arr ids = g.dag.toMatrix arr ids := by
  induction k with
  | zero => rfl
  | succ k ih =>
    rw [Function.iterate_succ_apply', ← ih]
    have h : ∀ g' : Gate, (Gate.dag g').toMatrix arr ids =
        ({ g' with dagger := true } : Gate).toMatrix arr ids := fun g' => rfl
    rw [h]
    congr 1
    have : (Gate.dag^[k + 1] g).dagger = true := by rw [Function.iterate_succ_apply']; rfl
    rw [← this]

/-- C05 fails: for the three-level shift gate, two `dag()` calls do not restore the matrix. -/
theorem C05_double_dag_violated :
    ∃ (g : Gate) (arr A B : Arr2 ℂ), g.toMatrix arr 0 = .ok A ∧ g.dag.dag.toMatrix arr 0 = .ok B ∧
      B.toM 3 ≠ A.toM 3 := by
  refine ⟨⟨[3], "X", .single, .one 0, none, false, false⟩,
    ⟨3, 3, fun r c => if r = (c + 1) % 3 then 1 else 0⟩, _, _, rfl, rfl, ?_⟩
  intro h
  have := congrFun (congrFun h 1) 0
  simp [Arr2.toM, Arr2.conjT, Gate.dag] at this

example : ∃ A B : Arr2 ℂ,
    (⟨[3, 2], "X", .single, .one 0, none, false, false⟩ : Gate).toMatrix
      (⟨3, 3, fun r c => if r = (c + 1) % 3 then 1 else 0⟩ : Arr2 ℂ) 2 = .ok A ∧
    (⟨[3, 2], "X", .single, .one 0, none, false, false⟩ : Gate).dag.toMatrix
      (⟨3, 3, fun r c => if r = (c + 1) % 3 then 1 else 0⟩ : Arr2 ℂ) 2 = .ok B ∧ B.toM 6 = (A.toM 6)ᴴ := by
  set g : Gate := ⟨[3, 2], "X", .single, .one 0, none, false, false⟩ with hg
  set arr : Arr2 ℂ := ⟨3, 3, fun r c => if r = (c + 1) % 3 then 1 else 0⟩ with ha
  obtain ⟨A, hA, hAr, _⟩ := C12_full_register (n := 2) ![3, 2] g [0] arr (by decide) (by decide) rfl
    (by decide) (by decide) rfl rfl
  obtain ⟨B, hB, _⟩ := C12_full_register (n := 2) ![3, 2] g.dag [0] arr (by decide) (by decide) rfl
    (by decide) (by decide) rfl rfl
  exact ⟨A, B, hA, hB, C05_dag_adjoint_partial (n := 2) ![3, 2] g [0] arr A B rfl (by decide) (by decide) rfl
    (by decide) (by decide) rfl rfl 2 (Or.inr rfl) hA hB 6 (by rw [hAr]; decide)⟩

/-! ### C14 -/

/-- C14: the vector built for a list of levels has its single 1 at the mixed-radix index. -/
theorem C14_basis_vector (dims vec : List Nat) (hv : Levels dims vec) (hne : vec ≠ []) :
    ∃ v, fromDiracToBasis vec dims = .ok v ∧ v.length = dims.prod ∧
      ∀ i, i < dims.prod → v[i]? = some (if i = index dims vec then 1 else 0) := by
  cases hv with
  | nil => exact absurd rfl hne
  | @cons l d ls ds hl ht =>
    obtain ⟨v, hv, hu⟩ := isUnit_basis d l hl
    obtain ⟨vs, h1, _, h3⟩ := basisVecs_ok ht
    have := h3 v d l hu
    refine ⟨vs.foldl kronVec v, ?_, by simpa using this.1, ?_⟩
    · simp only [fromDiracToBasis, basisVecs, hv, h1, bind, Except.bind, pure, Except.pure]
    · intro i hi
      rw [List.prod_cons] at hi
      have h := this.2.2 i hi
      rw [h]
      simp only [index]
      congr

/-- C14: a level that does not exist on its line is rejected, and so is an empty list or a dimension
list that is too short. -/
theorem C14_rejects (dims vec : List Nat) :
    (∃ v, fromDiracToBasis vec dims = .ok v) →
      vec ≠ [] ∧ vec.length ≤ dims.length ∧ ∀ p ∈ vec.zip dims, p.1 < p.2 := by
  have key : ∀ vec dims : List Nat, (∃ vs, basisVecs vec dims = .ok vs) →
      vec.length ≤ dims.length ∧ ∀ p ∈ vec.zip dims, p.1 < p.2 := by
    intro vec
    induction vec with
    | nil => intro dims _; simp
    | cons l ls ih =>
      intro dims h
      cases dims with
      | nil => obtain ⟨vs, h⟩ := h; cases h
      | cons d ds =>
        obtain ⟨vs, h⟩ := h
        simp only [basisVecs, basisVec] at h
        by_cases hl : l < d
        · simp only [hl, if_true, bind, Except.bind] at h
          cases hb : basisVecs ls ds with
          | error e => rw [hb] at h; cases h
          | ok vs' =>
            obtain ⟨h1, h2⟩ := ih ds ⟨vs', hb⟩
            refine ⟨by simpa using h1, ?_⟩
            intro p hp
            rw [List.zip_cons_cons, List.mem_cons] at hp
            rcases hp with rfl | hp
            · exact hl
            · exact h2 p hp
        · simp only [hl, if_false, bind, Except.bind] at h; cases h
  rintro ⟨v, hv⟩
  unfold fromDiracToBasis at hv
  cases hb : basisVecs vec dims with
  | error e => rw [hb] at hv; cases hv
  | ok vs =>
    refine ⟨?_, (key vec dims ⟨vs, hb⟩).1, (key vec dims ⟨vs, hb⟩).2⟩
    rintro rfl
    rw [show basisVecs [] dims = .ok [] from by cases dims <;> rfl] at hb
    have := Except.ok.inj hb
    subst this
    cases hv

/-- C14: level lists and indices below the product of the dimensions correspond one to one. -/
theorem C14_bijection (dims : List Nat) :
    (∀ a, Levels dims a → index dims a < dims.prod) ∧
    (∀ a b, Levels dims a → Levels dims b → index dims a = index dims b → a = b) ∧
    (∀ k, k < dims.prod → ∃ a, Levels dims a ∧ index dims a = k) :=
  ⟨fun _ h => index_lt h, fun _ _ ha hb h => index_inj ha hb h, fun _ h => index_surj h⟩

/-- C14: splitting a two-line index inverts the composition. -/
theorem C14_split (q0 q1 d0 d1 : Nat) (h : Levels [d0, d1] [q0, q1]) :
    calculateQ0Q1 (index [d0, d1] [q0, q1]) d1 = .ok (q0, q1) := by
  cases h with
  | cons h0 h =>
    cases h with
    | cons h1 _ =>
      unfold calculateQ0Q1
      rw [if_neg (by omega)]
      simp only [index, List.prod_cons, List.prod_nil, Nat.mul_one, Nat.add_zero]
      rw [Nat.mul_comm q0, Nat.mul_add_mod, Nat.mod_eq_of_lt h1, Nat.add_sub_cancel,
        Nat.mul_div_cancel_left _ (by omega)]

/-- C14: the enumeration of all level lists (line 0 outermost) used to place matrix entries lists each level list exactly
at its mixed-radix index. -/
theorem C14_enumeration (dims : List Nat) :
    (itProduct (siteLogics dims)).length = dims.prod ∧
    ∀ k a, (itProduct (siteLogics dims))[k]? = some a ↔ Levels dims a ∧ index dims a = k := by
  refine ⟨itProduct_site_length dims, fun k a => ⟨fun h => ?_, ?_⟩⟩
  · obtain ⟨hk, _⟩ := List.getElem?_eq_some_iff.1 h
    rw [itProduct_site_length] at hk
    obtain ⟨b, hb, hbk⟩ := index_surj hk
    have := itProduct_getElem? hb
    rw [hbk, h] at this
    injection this with this
    subst this
    exact ⟨hb, hbk⟩
  · rintro ⟨h, rfl⟩
    exact itProduct_getElem? h

example : (itProduct (siteLogics [2, 3]))[4]? = some [1, 1] := by decide

example : fromDiracToBasis [1, 0, 2] [2, 2, 3] = .ok [0, 0, 0, 0, 0, 0, 0, 0, 1, 0, 0, 0] := by decide
example : fromDiracToBasis [1, 2] [2, 2] = .error .indexError := by decide
example : index [2, 2, 3] [1, 0, 2] = 8 ∧ calculateQ0Q1 7 3 = .ok (2, 1) := by decide

/-! ### C52 -/

/-- C52: `insert_at` returns an array of the big shape that agrees with the small array on the addressed block and with the
big array everywhere else; it refuses exactly the blocks that do not fit. -/
theorem C52_insert_at (big small : Arr2 α) (x y : Nat) :
    (∀ R, insertAt big x y small = .ok R →
      R.rows = big.rows ∧ R.cols = big.cols ∧
      (∀ i j, i < small.rows → j < small.cols → R.at' (x + i) (y + j) = small.at' i j) ∧
      (∀ r c, (¬ ∃ i j, i < small.rows ∧ j < small.cols ∧ r = x + i ∧ c = y + j) → R.at' r c = big.at' r c)) ∧
    ((∃ R, insertAt big x y small = .ok R) ↔ x + small.rows ≤ big.rows ∧ y + small.cols ≤ big.cols) := by
  unfold insertAt
  constructor
  · intro R h
    split_ifs at h
    injection h with h
    subst h
    refine ⟨rfl, rfl, ?_, ?_⟩
    · intro i j hi hj
      dsimp only
      rw [if_pos ⟨by omega, by omega, by omega, by omega⟩]
      congr 1 <;> omega
    · intro r c hn
      dsimp only
      rw [if_neg]
      rintro ⟨h1, h2, h3, h4⟩
      exact hn ⟨r - x, c - y, by omega, by omega, by omega, by omega⟩
  · constructor
    · rintro ⟨R, h⟩
      split_ifs at h
      constructor <;> omega
    · rintro ⟨h1, h2⟩
      rw [if_neg (by omega), if_neg (by omega)]
      exact ⟨_, rfl⟩

example : ∃ R, insertAt (⟨4, 4, fun _ _ => 0⟩ : Arr2 Nat) 1 2 ⟨2, 2, fun r c => r + 2 * c + 1⟩ = .ok R ∧ R.at' 2 3 = 4 :=
  ⟨_, rfl, rfl⟩

end Qudits
