import Verif.Props.GateLawProps

/-
Properties C09 (CSum and CEx on a register, either line order) and C10 (light shift gate).

In all statements `g` is a gate of the circuit with register dimensions `d`, naming lines `a` and `b` in this
order, without attached controls and not daggered; the array is the one `__array__` computes from the named
lines and their dimensions and the result is `to_matrix(identities=2)`.
-/
namespace Qudits
open Complex Spec Matrix

variable {n : Nat}

/-- `csum([a, b])` on the whole register: the target level grows by the control level, modulo the dimension of
the target line, all other lines untouched; whichever of the two lines comes first. -/
theorem C09_csum_register (d : Fin n → Nat) (g : Gate) (a b : Fin n) (hab : a ≠ b)
    (hdims : g.dims = List.ofFn d) (hT : g.target = .many [((a : Nat) : Int), ((b : Nat) : Int)])
    (hctl : g.controls = none) (hdag : g.dagger = false) :
    ∃ arr A, csumArray (a : Nat) (b : Nat) (d a) (d b) = .ok arr ∧ g.toMatrix arr 2 = .ok A ∧
      A.rows = ∏ i, d i ∧ A.cols = ∏ i, d i ∧
      ∀ x y : Reg d, A.at' (idx d x) (idx d y) =
        if (∀ i, i ≠ b → x i = y i) ∧ (x b : Nat) = (y b + y a) % d b then 1 else 0 := by
  obtain ⟨arr, harr, r1, r2, r3⟩ := csumArray_ok (a : Nat) (b : Nat) (d a) (d b)
  obtain ⟨A, hA, h1, h2, h3⟩ := pair_register d g a b hab arr hdims hT hctl hdag r1 r2
  refine ⟨arr, A, harr, hA, h1, h2, ?_⟩
  intro x y
  rw [h3]
  have hval : (if a < b then arr.at' (x a * d b + x b) (y a * d b + y b)
      else arr.at' (x b * d a + x a) (y b * d a + y a)) =
      if (x a : Nat) = y a ∧ (x b : Nat) = (y b + x a) % d b then 1 else 0 := by
    have := r3 (x a) (y a) (x b) (y b) (x a).2 (y a).2 (x b).2 (y b).2
    have e : (((a : Nat) : Int) < ((b : Nat) : Int)) ↔ a < b := by
      rw [Fin.lt_def]; exact Int.ofNat_lt
    simp only [e] at this
    exact this
  rw [hval]
  by_cases hx : ∀ i, i ≠ a → i ≠ b → x i = y i
  · rw [if_pos hx]
    by_cases hxa : x a = y a
    · have hall : ∀ i, i ≠ b → x i = y i := by
        intro i hi
        by_cases hia : i = a
        · rw [hia]; exact hxa
        · exact hx i hia hi
      refine if_congr ?_ rfl rfl
      rw [hxa]
      exact ⟨fun h => ⟨hall, h.2⟩, fun h => ⟨rfl, h.2⟩⟩
    · rw [if_neg (fun h => hxa (Fin.ext h.1)), if_neg (fun h => hxa (h.1 a hab))]
  · rw [if_neg hx, if_neg (fun h => hx (fun i _ hi => h.1 i hi))]

theorem cexOp_entry {m : Nat} (la lb r s : Fin m) (h : la ≠ lb) (phi : ℝ) :
    twoLevel la lb (cexOp phi) r s = if s = la then (if r = lb then -I * cexp (I * phi) else 0)
      else if s = lb then (if r = la then -I * cexp (-(I * phi)) else 0)
      else if r = s then 1 else 0 := by
  simp only [twoLevel, cexOp]
  by_cases h1 : r = la
  · subst h1
    by_cases h3 : s = r
    · subst h3; simp [h]
    · by_cases h4 : s = lb
      · subst h4; simp [h3]
      · simp [h3, h4, Ne.symm h3]
  · by_cases h2 : r = lb
    · subst h2
      by_cases h3 : s = la
      · subst h3; simp [h1]
      · by_cases h4 : s = r
        · subst h4; simp [h1]
        · simp [h1, h3, h4, Ne.symm h4]
    · by_cases h3 : s = la
      · subst h3; simp [h1, h2]
      · by_cases h4 : s = lb
        · subst h4; simp [h1, h2, h3]
        · simp [h1, h2, h3, h4]

/-- `cx([a, b], [la, lb, ctrl, phi])` on the whole register: identity unless line `a` is in the control level;
there it exchanges the levels `la < lb` of line `b` with phases `-i exp(-i phi)` (into `la`) and
`-i exp(i phi)` (into `lb`) and leaves the other levels alone. -/
theorem C09_cex_register (d : Fin n → Nat) (g : Gate) (a b : Fin n) (hab : a ≠ b)
    (hdims : g.dims = List.ofFn d) (hT : g.target = .many [((a : Nat) : Int), ((b : Nat) : Int)])
    (hctl : g.controls = none) (hdag : g.dagger = false)
    (la lb : Fin (d b)) (hl : la < lb) (ctrl : Int) (phi : ℝ) (hphi : 0 ≤ phi ∧ phi ≤ 2 * Real.pi) :
    ∃ p arr A, cexInit (.list [.int (la : Nat), .int (lb : Nat), .int ctrl, .flt phi]) = .ok p ∧
      cexArray (a : Nat) (b : Nat) (d a) (d b) p = .ok arr ∧ g.toMatrix arr 2 = .ok A ∧
      A.rows = ∏ i, d i ∧ A.cols = ∏ i, d i ∧
      ∀ x y : Reg d, A.at' (idx d x) (idx d y) =
        if ∀ i, i ≠ b → x i = y i then
          (if ((y a : Nat) : Int) ≠ ctrl then (if x b = y b then 1 else 0)
           else if y b = la then (if x b = lb then -I * cexp (I * phi) else 0)
           else if y b = lb then (if x b = la then -I * cexp (-(I * phi)) else 0)
           else if x b = y b then 1 else 0)
        else 0 := by
  have hl' : ((la : Nat) : Int) < ((lb : Nat) : Int) := by exact_mod_cast hl
  have hp : cexInit (.list [.int (la : Nat), .int (lb : Nat), .int ctrl, .flt phi]) =
      .ok ⟨(la : Nat), (lb : Nat), ctrl, phi⟩ := by
    simp only [cexInit, needInt, needFlt, bind, Except.bind, pure, Except.pure, List.getElem?_cons_zero,
      List.getElem?_cons_succ]
    rw [if_pos ⟨by omega, hl', hphi.1, hphi.2⟩]
  obtain ⟨arr, harr, r1, r2, r3⟩ := cexArray_ok (a : Nat) (b : Nat) (d a) (d b) ⟨(la : Nat), (lb : Nat), ctrl, phi⟩
    la lb hl rfl rfl
  obtain ⟨A, hA, h1, h2, h3⟩ := pair_register d g a b hab arr hdims hT hctl hdag r1 r2
  refine ⟨_, arr, A, hp, harr, hA, h1, h2, ?_⟩
  intro x y
  rw [h3]
  have hval : (if a < b then arr.at' (x a * d b + x b) (y a * d b + y b)
      else arr.at' (x b * d a + x a) (y b * d a + y a)) =
      if (x a : Nat) = y a then (if ((x a : Nat) : Int) = ctrl then twoLevel la lb (cexOp phi) (x b) (y b) else
            (1 : Matrix (Fin (d b)) (Fin (d b)) ℂ) (x b) (y b)) else 0 := by
    have := r3 (x a) (y a) (x b) (y b) (x a).2 (y a).2
    have e : (((a : Nat) : Int) < ((b : Nat) : Int)) ↔ a < b := by
      rw [Fin.lt_def]; exact Int.ofNat_lt
    simp only [e] at this
    exact this
  rw [hval]
  by_cases hx : ∀ i, i ≠ a → i ≠ b → x i = y i
  · rw [if_pos hx]
    by_cases hxa : x a = y a
    · have hall : ∀ i, i ≠ b → x i = y i := by
        intro i hi
        by_cases hia : i = a
        · rw [hia]; exact hxa
        · exact hx i hia hi
      rw [if_pos hall, if_pos (by rw [hxa]), hxa]
      have hne : la ≠ lb := ne_of_lt hl
      by_cases hc : ((y a : Nat) : Int) = ctrl
      · rw [if_pos hc, if_neg (by simpa using hc)]
        exact cexOp_entry la lb (x b) (y b) hne phi
      · rw [if_neg hc, if_pos hc, Matrix.one_apply]
    · rw [if_neg (fun h => hxa (Fin.ext h)), if_neg (fun h => hxa (h a hab))]
  · rw [if_neg hx, if_neg (fun h => hx (fun i _ hi => h i hi))]

theorem accumulate_error (n k : Nat) (hk : k < n) (m : Arr2 ℂ) (f : Nat → Except PyErr (Arr2 ℂ))
    (g : Nat → Arr2 ℂ) (e : PyErr) (hf : ∀ i < k, f i = .ok (g i))
    (hs : ∀ i < k, (g i).rows = m.rows ∧ (g i).cols = m.cols) (he : f k = .error e) :
    Arr2.accumulate n m f = .error e := by
  obtain ⟨A, hA, _⟩ := accumulate_ok k m f g hf hs
  unfold Arr2.accumulate at hA ⊢
  rw [show n = k + ((n - k - 1) + 1) by omega, List.range_add, List.foldlM_append, hA, List.range_succ_eq_map]
  simp only [List.map_cons, Nat.add_zero, List.foldlM_cons, he]
  rfl

/-- A level beyond the dimension of the second line is accepted by the parameter check; asking for the matrix
then raises. -/
theorem C09_cex_level_too_high (q0 q1 : Int) (d0 d1 : Nat) (g : CExParams)
    (h2 : (d1 : Int) ≤ g.levB) (c : Fin d0) (hc : g.ctrl = (c : Nat)) :
    cexArray q0 q1 d0 d1 g = .error .indexError := by
  have hop : cexOpArray d1 g = .error .indexError := by
    unfold cexOpArray
    simp only [bind, Except.bind]
    by_cases h1 : g.levA.toNat < d1
    swap
    · unfold Arr2.set
      rw [if_neg]
      simp only [Arr2.identity]
      omega
    rw [set_ok _ _ _ _ (by simp only [Arr2.identity]; omega) (by simp only [Arr2.identity]; omega)]
    simp only []
    have : ∀ (M : Arr2 ℂ) v, M.rows = d1 → M.cols = d1 →
        M.set g.levA.toNat g.levB.toNat v = .error .indexError := by
      intro M v hr hc
      unfold Arr2.set
      rw [if_neg]
      rw [hc]
      omega
    rw [this _ _ rfl rfl]
  unfold cexArray
  refine accumulate_error d0 c c.2 _ _ (fun i => if q0 < q1 then (outer (uvec d0 i) (uvec d0 i)).kron (Arr2.identity d1)
    else (Arr2.identity d1).kron (outer (uvec d0 i) (uvec d0 i))) _ ?_ ?_ ?_
  · intro i hi
    have hne : ¬ ((i : Int) = g.ctrl) := by rw [hc]; intro h; have : i = (c : Nat) := by exact_mod_cast h
                                            omega
    simp only [dirac_one (lt_trans hi c.2), if_neg hne, bind, Except.bind, pure, Except.pure]
  · intro i _
    split_ifs
    · simp [Arr2.kron, outer, uvec, Arr2.identity, Arr2.zeros]
    · simp [Arr2.kron, outer, uvec, Arr2.identity, Arr2.zeros, Nat.mul_comm]
  · simp only [dirac_one c.2, if_pos hc.symm, hop, bind, Except.bind]

/-- C06 for CEx without any assumption on the levels: whatever matrix is returned is unitary. -/
theorem C06_cex_returned (q0 q1 : Int) (d0 d1 : Nat) (p : Params) (g : CExParams) (hacc : cexInit p = .ok g)
    (A : Arr2 ℂ) (hA : cexArray q0 q1 d0 d1 g = .ok A) : UnitaryArr A (d0 * d1) := by
  by_cases hlev : g.levB < d1
  · obtain ⟨A', hA', h⟩ := C06_cex q0 q1 d0 d1 p g hacc hlev
    rw [hA] at hA'; cases hA'
    exact h
  · by_cases hc : 0 ≤ g.ctrl ∧ g.ctrl < d0
    · rw [C09_cex_level_too_high q0 q1 d0 d1 g (by omega) ⟨g.ctrl.toNat, by omega⟩ (by simp only []; omega)] at hA
      cases hA
    · obtain ⟨B, hB, b1, b2, b3⟩ := ctl_acc (c := d0) (t := d1) (decide (q0 < q1)) (fun i => do
          let v ← fromDiracToBasis [i] [d0]
          let mapmat := outer v v
          let op ← if (i : Int) = g.ctrl then cexOpArray d1 g else pure (Arr2.identity d1)
          pure (if q0 < q1 then mapmat.kron op else op.kron mapmat))
        (fun _ => Arr2.identity d1)
        (fun k hk => by
          have hne : ¬ ((k : Int) = g.ctrl) := by omega
          simp only [dirac_one hk, if_neg hne]
          simp [bind, Except.bind, pure, Except.pure])
        (fun k _ => ⟨rfl, rfl⟩)
      have hB' : cexArray q0 q1 d0 d1 g = .ok B := hB
      rw [hA] at hB'; cases hB'
      refine ⟨b1, b2, ?_⟩
      simp only [decide_eq_true_eq] at b3
      by_cases hq : q0 < q1
      · simp only [if_pos hq] at b3
        refine block_unitary A (fun _ => (1 : Matrix (Fin d1) (Fin d1) ℂ)) (fun _ => one_mem _) ?_
        intro i j r s
        rw [b3 i j r s i.2 j.2 r.2 s.2]
        simp only [Arr2.identity, Matrix.one_apply, Fin.ext_iff]
      · simp only [if_neg hq] at b3
        rw [Nat.mul_comm]
        refine block_unitary' A (fun _ => (1 : Matrix (Fin d1) (Fin d1) ℂ)) (fun _ => one_mem _) ?_
        intro i j r s
        rw [b3 i j r s i.2 j.2 r.2 s.2]
        simp only [Arr2.identity, Matrix.one_apply, Fin.ext_iff]

/-- C06 for MS without any assumption on the dimensions: whatever matrix is returned is unitary. -/
theorem C06_ms_returned (d0 d1 : Nat) (theta : ℝ) (A : Arr2 ℂ) (hA : msArray d0 d1 theta = .ok A) :
    UnitaryArr A (d0 * d1) := by
  have hg : ∀ d, d < 2 → gellMann d 0 1 "s" = .error .indexError := by
    intro d hd
    unfold gellMann
    rw [if_pos (by decide), if_pos rfl]
    simp only [bind, Except.bind]
    unfold Arr2.set
    rw [if_neg (by simp only [Arr2.zeros]; omega)]
  by_cases h1 : d1 < 2
  · unfold msArray at hA
    rw [hg d1 h1] at hA
    cases hA
  · by_cases h0 : d0 < 2
    · unfold msArray at hA
      obtain ⟨_, _, h⟩ := bind_ok hA
      rw [hg d0 h0] at h
      cases h
    · obtain ⟨A', hA', e1, e2, e3⟩ := msArray_ok d0 d1 (by omega) (by omega) theta
      rw [hA] at hA'; cases hA'
      exact ⟨e1, e2, e3⟩

example : cexInit (.list [.int 0, .int 5, .int 0, .flt 0]) = .ok ⟨0, 5, 0, 0⟩ := by
  have : (0 : ℝ) ≤ 2 * Real.pi := by have := Real.pi_pos; linarith
  simp [cexInit, needInt, needFlt, bind, Except.bind, pure, Except.pure, this]

/-! ### C10 -/

/-- `ls([a, b], [theta])` on the register: phase `exp(-i theta)` exactly where the levels of the two lines
agree. Proved when the lines are named in ascending order or have equal dimension; the remaining case is
refuted below. -/
theorem C10_ls_register_partial (d : Fin n → Nat) (g : Gate) (a b : Fin n) (hab : a ≠ b)
    (hdims : g.dims = List.ofFn d) (hT : g.target = .many [((a : Nat) : Int), ((b : Nat) : Int)])
    (hctl : g.controls = none) (hdag : g.dagger = false) (theta : ℝ) (horder : a < b ∨ d a = d b) :
    ∃ arr A, lsArray (d a) (d b) theta = .ok arr ∧ g.toMatrix arr 2 = .ok A ∧
      A.rows = ∏ i, d i ∧ A.cols = ∏ i, d i ∧
      ∀ x y : Reg d, A.at' (idx d x) (idx d y) =
        if x = y then (if (y a : Nat) = y b then cexp (-I * theta) else 1) else 0 := by
  obtain ⟨arr, harr, r1, r2, r3⟩ := lsArray_ok (d a) (d b) theta
  obtain ⟨A, hA, h1, h2, h3⟩ := pair_register d g a b hab arr hdims hT hctl hdag r1 r2
  refine ⟨arr, A, harr, hA, h1, h2, ?_⟩
  intro x y
  rw [h3]
  have hab' := (y a).2
  have hbb' := (y b).2
  have hdiv : ∀ (p q m : Nat), q < m → (p * m + q) / m = p ∧ (p * m + q) % m = q := by
    intro p q m hq
    refine ⟨?_, ?_⟩
    · rw [mul_comm, Nat.mul_add_div (by omega), Nat.div_eq_of_lt hq, add_zero]
    · rw [mul_comm, Nat.mul_add_mod, Nat.mod_eq_of_lt hq]
  have hlt : ∀ (p q k m : Nat), p < k → q < m → p * m + q < k * m := by
    intro p q k m hp hq
    calc p * m + q < p * m + m := by omega
      _ = (p + 1) * m := by ring
      _ ≤ k * m := Nat.mul_le_mul_right _ hp
  have hinj : ∀ (p q p' q' m : Nat), q < m → q' < m → (p * m + q = p' * m + q' ↔ p = p' ∧ q = q') := by
    intro p q p' q' m hq hq'
    constructor
    · intro h
      have e1 := hdiv p q m hq
      have e2 := hdiv p' q' m hq'
      rw [h] at e1
      exact ⟨e1.1.symm.trans e2.1, e1.2.symm.trans e2.2⟩
    · rintro ⟨rfl, rfl⟩; rfl
  have hval : (if a < b then arr.at' (x a * d b + x b) (y a * d b + y b)
      else arr.at' (x b * d a + x a) (y b * d a + y a)) =
      if x a = y a ∧ x b = y b then (if (y a : Nat) = y b then cexp (-I * theta) else 1) else 0 := by
    by_cases hlt' : a < b
    · rw [if_pos hlt', r3 _ _ (hlt _ _ _ _ (x a).2 (x b).2) (hlt _ _ _ _ (y a).2 (y b).2)]
      rw [(hdiv _ _ _ (y b).2).1, (hdiv _ _ _ (y b).2).2]
      simp only [hinj _ _ _ _ _ (x b).2 (y b).2, Fin.ext_iff]
      split_ifs <;> simp
    · rw [if_neg hlt']
      have he : d a = d b := horder.resolve_left hlt'
      have key : ∀ p q p' q' : Nat, p < d a → p' < d a → q < d b → q' < d b →
          arr.at' (q * d a + p) (q' * d a + p') =
            if p = p' ∧ q = q' then (if p' = q' then cexp (-I * theta) else 1) else 0 := by
        rw [he]
        intro p q p' q' hp hp' hq hq'
        rw [r3 _ _ (by rw [he]; exact hlt _ _ _ _ hq hp) (by rw [he]; exact hlt _ _ _ _ hq' hp')]
        rw [(hdiv _ _ _ hp').1, (hdiv _ _ _ hp').2]
        simp only [hinj _ _ _ _ _ hp hp']
        have e : (q = q' ∧ p = p') ↔ (p = p' ∧ q = q') := and_comm
        simp only [e, eq_comm (a := q') (b := p')]
        split_ifs <;> simp
      rw [key _ _ _ _ (x a).2 (y a).2 (x b).2 (y b).2]
      simp only [Fin.ext_iff]
  rw [hval]
  by_cases hxy : x = y
  · subst hxy; simp
  · rw [if_neg hxy]
    by_cases hx : ∀ i, i ≠ a → i ≠ b → x i = y i
    · rw [if_pos hx, if_neg]
      rintro ⟨e1, e2⟩
      apply hxy
      funext i
      by_cases hia : i = a
      · rw [hia]; exact e1
      · by_cases hib : i = b
        · rw [hib]; exact e2
        · exact hx i hia hib
    · rw [if_neg hx]

/-- C10 fails for reversed lines of different dimension: on a register of dimensions `[2, 3]`, `ls([1, 0])`
puts the phase on `|1,0>` (index 3) instead of `|1,1>` (index 4). -/
theorem C10_ls_reversed_violated (theta : ℝ) :
    ∃ arr A, lsArray 3 2 theta = .ok arr ∧
      (⟨[2, 3], "LS", .two, .many [1, 0], none, false, false⟩ : Gate).toMatrix arr 2 = .ok A ∧
      A.at' 4 4 = 1 ∧ A.at' 3 3 = cexp (-I * theta) := by
  obtain ⟨arr, harr, r1, r2, r3⟩ := lsArray_ok 3 2 theta
  obtain ⟨A, hA, h1, h2, h3⟩ := pair_register (n := 2) ![2, 3]
    ⟨[2, 3], "LS", .two, .many [1, 0], none, false, false⟩ 1 0 (by decide) arr (by decide) rfl rfl rfl
    (by simpa using r1) (by simpa using r2)
  refine ⟨arr, A, harr, hA, ?_, ?_⟩
  · have := h3 (Fin.cons (1 : Fin 2) (Fin.cons (1 : Fin 3) finZeroElim))
      (Fin.cons (1 : Fin 2) (Fin.cons (1 : Fin 3) finZeroElim))
    rw [if_neg (by decide : ¬ ((1 : Fin 2) < 0))] at this
    have e : idx ![2, 3] (Fin.cons (1 : Fin 2) (Fin.cons (1 : Fin 3) finZeroElim)) = 4 := by decide
    rw [e] at this
    rw [this, if_pos (fun _ _ _ => rfl)]
    exact (r3 4 4 (by norm_num) (by norm_num)).trans (by norm_num)
  · have := h3 (Fin.cons (1 : Fin 2) (Fin.cons (0 : Fin 3) finZeroElim))
      (Fin.cons (1 : Fin 2) (Fin.cons (0 : Fin 3) finZeroElim))
    rw [if_neg (by decide : ¬ ((1 : Fin 2) < 0))] at this
    have e : idx ![2, 3] (Fin.cons (1 : Fin 2) (Fin.cons (0 : Fin 3) finZeroElim)) = 3 := by decide
    rw [e] at this
    rw [this, if_pos (fun _ _ _ => rfl)]
    exact (r3 3 3 (by norm_num) (by norm_num)).trans (by norm_num)

/-- the hypotheses of the register theorems: lines 2 and 0 of a three-line register -/
example : ∃ arr A, csumArray 2 0 3 2 = .ok arr ∧
    (⟨[2, 5, 3], "CSum", .two, .many [2, 0], none, false, true⟩ : Gate).toMatrix arr 2 = .ok A := by
  obtain ⟨arr, A, h1, h2, _⟩ := C09_csum_register ![2, 5, 3]
    ⟨[2, 5, 3], "CSum", .two, .many [2, 0], none, false, true⟩ 2 0 (by decide) (by decide) rfl rfl rfl
  exact ⟨arr, A, h1, h2⟩

example : ∃ p arr A, cexInit (.list [.int 0, .int 2, .int 1, .flt 0]) = .ok p ∧ cexArray 0 1 2 3 p = .ok arr ∧
    (⟨[2, 3], "CEx", .two, .many [0, 1], none, false, false⟩ : Gate).toMatrix arr 2 = .ok A := by
  obtain ⟨p, arr, A, h1, h2, h3, _⟩ := C09_cex_register ![2, 3]
    ⟨[2, 3], "CEx", .two, .many [0, 1], none, false, false⟩ 0 1 (by decide) (by decide) rfl rfl rfl
    (0 : Fin 3) (2 : Fin 3) (by decide) 1 0 ⟨le_refl _, by have := Real.pi_pos; linarith⟩
  exact ⟨p, arr, A, h1, h2, h3⟩

example : ∃ arr A, lsArray 3 3 1 = .ok arr ∧
    (⟨[3, 3], "LS", .two, .many [1, 0], none, false, false⟩ : Gate).toMatrix arr 2 = .ok A := by
  obtain ⟨arr, A, h1, h2, _⟩ := C10_ls_register_partial ![3, 3]
    ⟨[3, 3], "LS", .two, .many [1, 0], none, false, false⟩ 1 0 (by decide) (by decide) rfl rfl rfl 1 (Or.inr rfl)
  exact ⟨arr, A, h1, h2⟩

end Qudits
