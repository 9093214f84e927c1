import Verif.Lemmas.DDReg
/-
C16, C17 and C53: arithmetic on decision diagrams and gate diagrams.
-/
namespace Qudits
open Spec DD Matrix Classical

variable {n : Nat} {d : Fin n → Nat} {H : Hashes} {t : Tables}

/-! ### C16: node construction -/

/-- C16: making a vector node (as the operations do) does not change the represented values: the value on a path that starts
with edge `i` is the value of child `i` on the rest of the path. -/
theorem C16_node_vector {ds : List Nat} (r : Nat) (es : List (Edge ds)) (hlen : es.length = r) (hp : ∀ e ∈ es, Proper .vec ds e) :
    Proper .vec (r :: ds) (makeV r es true) ∧
      ∀ i p, val (r :: ds) (makeV r es true) (i :: p) = val ds (at' es i) p :=
  makeV_ok hp hlen (Or.inl rfl)

/-- C16, partial: the same for a matrix node, if the construction returns (see `C16_matrix_violated` for when it does not). -/
theorem C16_node_matrix_partial {ds : List Nat} (r : Nat) (es : List (Edge ds)) (hlen : es.length = r * r)
    (hp : ∀ e ∈ es, Proper .mat ds e) (e : Edge (r :: ds)) (he : makeM r es = .ok e) :
    Proper .mat (r :: ds) e ∧ ∀ i j xs ys, i < r → j < r →
      entry (r :: ds) e (i :: xs) (j :: ys) = entry ds (at' es (r * i + j)) xs ys := by
  obtain ⟨h1, h2⟩ := makeM_ok hp hlen he
  exact ⟨h1, fun i j xs ys _ _ => h2 _ _⟩

/-- the terminal edge of weight `w` -/
private def leaf (w : ℂ) : Edge [] := some (w, ())

/-- children that satisfy the hypotheses, with different weights -/
example : ∃ es : List (Edge []), es.length = 3 ∧ (∀ e ∈ es, Proper .vec [] e) ∧ val [] (at' es 1) [] = 2 :=
  ⟨[none, leaf 2, leaf Complex.I], rfl, by
    refine ⟨?_, rfl⟩
    intro e he
    rcases List.mem_cons.1 he with rfl | he
    · exact proper_none _
    rcases List.mem_cons.1 he with rfl | he
    · exact two_ne_zero
    rcases List.mem_cons.1 he with rfl | he
    · exact Complex.I_ne_zero
    · cases he⟩

/-- C16 is violated by the public `makeDDNode` with weights that are not cached: normalisation then loses the weight of the
largest child. -/
theorem C16_node_uncached_violated :
    ∃ es : List (Edge []), es.length = 2 ∧ (∀ e ∈ es, Proper .vec [] e) ∧
      val [2] (makeV 2 es false) [0] ≠ val [] (at' es 0) [] := by
  refine ⟨[leaf 2, leaf 2], rfl, ?_, ?_⟩
  · intro e he
    rcases List.mem_cons.1 he with rfl | he
    · exact two_ne_zero
    rcases List.mem_cons.1 he with rfl | he
    · exact two_ne_zero
    · cases he
  · have hw0 : weight (at' [leaf 2, leaf 2] 0) = 2 := rfl
    have hw1 : weight (at' [leaf 2, leaf 2] 1) = 2 := rfl
    have hfil : (List.range [leaf 2, leaf 2].length).filter (fun i => weight (at' [leaf 2, leaf 2] i) ≠ 0) = [0, 1] := by
      change [0, 1].filter _ = _
      rw [List.filter_cons_of_pos (by rw [hw0]; simp), List.filter_cons_of_pos (by rw [hw1]; simp)]
      rfl
    have hns : Complex.normSq 2 = 4 := by
      rw [Complex.normSq_apply]; norm_num
    have harg : argMaxV [leaf 2, leaf 2] = (4, 0) := by
      unfold argMaxV
      change [0, 1].foldr _ _ = _
      simp only [List.foldr_cons, List.foldr_nil, hw0, hw1, hns, ge_iff_le, le_refl, if_true]
    have hsum : (([leaf 2, leaf 2] : List (Edge [])).map fun e => Complex.normSq (weight e)).sum = 8 := by
      have : weight (leaf 2) = 2 := rfl
      simp only [List.map_cons, List.map_nil, List.sum_cons, List.sum_nil, this, hns]
      norm_num
    have hs4 : Real.sqrt 4 = 2 := by
      rw [show (4 : ℝ) = 2 * 2 by norm_num]
      exact Real.sqrt_mul_self (by norm_num)
    have h8 : (0 : ℝ) < Real.sqrt 8 := Real.sqrt_pos.2 (by norm_num)
    have h8c : ((Real.sqrt 8 : ℝ) : ℂ) ≠ 0 := by exact_mod_cast h8.ne'
    have hmk : makeV 2 [leaf 2, leaf 2] false =
        some (((Real.sqrt 8 / 2 : ℝ) : ℂ), mkNode (([leaf 2, leaf 2] : List (Edge [])).mapIdx fun i e =>
          if i = 0 then setW ((2 / Real.sqrt 8 : ℝ) : ℂ) e else setW (weight e / ((Real.sqrt 8 / 2 : ℝ) : ℂ)) e) false false) := by
      unfold makeV normalizeV
      rw [hfil, harg, hsum]
      dsimp only
      rw [hs4, if_neg (c := false = true ∧ _) (by simp)]
      rw [if_neg]
      intro h
      have : Real.sqrt 8 / 2 = 0 := by exact_mod_cast h
      linarith
    rw [hmk, val_cons]
    have hv : val [] (at' (Node.edges (mkNode (d := 2) (([leaf 2, leaf 2] : List (Edge [])).mapIdx fun i e =>
          if i = 0 then setW ((2 / Real.sqrt 8 : ℝ) : ℂ) e else setW (weight e / ((Real.sqrt 8 / 2 : ℝ) : ℂ)) e) false false)) 0) [] =
        ((2 / Real.sqrt 8 : ℝ) : ℂ) := by
      change val [] (setW ((2 / Real.sqrt 8 : ℝ) : ℂ) (leaf 2)) [] = _
      exact (val_setW (ds := []) _ _ () []).trans (mul_one _)
    rw [hv]
    change _ ≠ (2 : ℂ)
    push_cast
    intro h
    have : (Real.sqrt 8 : ℂ) / 2 * (2 / (Real.sqrt 8 : ℂ)) = 1 := by field_simp
    rw [this] at h
    norm_num at h

/-! ### C16: sums, products, adjoints -/

/-- C16: adding two vector diagrams, with any tables the package can have, returns a proper diagram of the sum. -/
theorem C16_add_vector (ht : Reachable H t) (x y : Edge (regs d)) (hx : Proper .vec (regs d) x) (hy : Proper .vec (regs d) y) :
    ∃ r t', add2 H .vec (regs d) x y t = .ok (r, t') ∧ Reachable H t' ∧ Proper .vec (regs d) r ∧
      vecOf d r = vecOf d x + vecOf d y := by
  have h := add2_ok H .vec (regs d) x y hx hy t (reachable_sound ht)
  obtain ⟨r, t', hr⟩ := h.2 (Or.inl rfl)
  obtain ⟨_, hp, hs⟩ := h.1 r t' hr
  exact ⟨r, t', hr, .add _ _ x y r t t' ht hx hy hr, hp, funext fun i => hs _⟩

/-- C16: applying a matrix diagram to a vector diagram returns a proper diagram of the matrix-vector product. -/
theorem C16_multiply_vector (ht : Reachable H t) (x y : Edge (regs d)) (hx : Proper .mat (regs d) x)
    (hy : Proper .vec (regs d) y) :
    ∃ r t', multiply H .vec (regs d) x y t = .ok (r, t') ∧ Reachable H t' ∧ Proper .vec (regs d) r ∧
      vecOf d r = (matOf d x).mulVec (vecOf d y) := by
  have h := multiply_ok H .vec (regs d) x y hx hy t (reachable_sound ht)
  obtain ⟨r, t', hr⟩ := h.2 (Or.inl rfl)
  obtain ⟨_, hp, hs⟩ := h.1 r t' hr
  refine ⟨r, t', hr, .mul _ _ x y r t t' ht hx hy hr, hp, funext fun i => ?_⟩
  have := hs (top i) _ (levels_top i) (levels_ones _)
  rw [gpath_vec _ _ (by rw [top_length, regs_length]), lsum_regs] at this
  refine this.trans (Finset.sum_congr rfl fun j _ => ?_)
  rw [gpath_vec _ _ (by rw [top_length, regs_length])]
  rfl

/-- C16, partial: adding two matrix diagrams, if it returns. -/
theorem C16_add_matrix_partial (ht : Reachable H t) (x y r : Edge (regs d)) (hx : Proper .mat (regs d) x)
    (hy : Proper .mat (regs d) y) (t' : Tables) (hr : add2 H .mat (regs d) x y t = .ok (r, t')) :
    Reachable H t' ∧ Proper .mat (regs d) r ∧ matOf d r = matOf d x + matOf d y := by
  obtain ⟨_, hp, hs⟩ := (add2_ok H .mat (regs d) x y hx hy t (reachable_sound ht)).1 r t' hr
  exact ⟨.add _ _ x y r t t' ht hx hy hr, hp, funext fun i => funext fun j => hs _⟩

/-- C16, partial: multiplying two matrix diagrams, if it returns. -/
theorem C16_multiply_matrix_partial (ht : Reachable H t) (x y r : Edge (regs d)) (hx : Proper .mat (regs d) x)
    (hy : Proper .mat (regs d) y) (t' : Tables) (hr : multiply H .mat (regs d) x y t = .ok (r, t')) :
    Reachable H t' ∧ Proper .mat (regs d) r ∧ matOf d r = matOf d x * matOf d y := by
  obtain ⟨_, hp, hs⟩ := (multiply_ok H .mat (regs d) x y hx hy t (reachable_sound ht)).1 r t' hr
  refine ⟨.mul _ _ x y r t t' ht hx hy hr, hp, funext fun i => funext fun j => ?_⟩
  have := hs (top i) (top j) (levels_top i) (by rw [map_cols_mat]; exact levels_top j)
  rw [gpath_mat, lsum_regs] at this
  refine this.trans ?_
  rw [Matrix.mul_apply]
  refine Finset.sum_congr rfl fun k _ => ?_
  rw [gpath_mat]
  rfl

/-- C16, partial: conjugate transposition, if it returns. -/
theorem C16_adjoint_partial (ht : Reachable H t) (x r : Edge (regs d)) (hx : Proper .mat (regs d) x) (t' : Tables)
    (hr : conjugateTranspose H (regs d) x t = .ok (r, t')) :
    Reachable H t' ∧ Proper .mat (regs d) r ∧ matOf d r = (matOf d x)ᴴ := by
  obtain ⟨_, hp, hs⟩ := (conjugateTranspose_ok H (regs d) x hx t (reachable_sound ht)).1 r t' hr
  exact ⟨.adj _ x r t t' ht hx hr, hp, funext fun i => funext fun j => hs _ _ (levels_top i) (levels_top j)⟩

/-- C16: for operators acting on one common line (possibly conditioned on the levels of others), the matrix operations do
return. -/
theorem C16_one_line (ht : Reachable H t) (q : Fin n) (x y : Edge (regs d)) (hx : Proper .mat (regs d) x)
    (hy : Proper .mat (regs d) y) (hqx : ActsOnLine q (matOf d x)) (hqy : ActsOnLine q (matOf d y)) :
    (∃ r t', add2 H .mat (regs d) x y t = .ok (r, t')) ∧ (∃ r t', multiply H .mat (regs d) x y t = .ok (r, t')) ∧
      ∃ r t', conjugateTranspose H (regs d) x t = .ok (r, t') :=
  ⟨(add2_ok H .mat (regs d) x y hx hy t (reachable_sound ht)).2 (Or.inr ⟨q, shape_top hqx, shape_top hqy⟩),
    (multiply_ok H .mat (regs d) x y hx hy t (reachable_sound ht)).2 (Or.inr ⟨q, shape_top hqx, shape_top hqy⟩),
    (conjugateTranspose_ok H (regs d) x hx t (reachable_sound ht)).2 ⟨q, shape_top hqx⟩⟩

/-- C16: reading the vector out gives the represented amplitudes; the last line is the most significant one. -/
theorem C16_read (e : Edge (regs d)) (hp : Proper .vec (regs d) e) :
    (getVector (regs d) e).length = (List.ofFn d).prod ∧
      ∀ x : Reg d, (getVector (regs d) e)[index (List.ofFn d).reverse (List.ofFn fun i => (x i : Nat)).reverse]? =
        some (vecOf d e x) := by
  obtain ⟨h1, h2⟩ := getVector_ok (regs d) e hp
  refine ⟨h1.trans ?_, fun x => h2 _ (levels_top x)⟩
  unfold regs
  exact List.prod_reverse _

/-- C16: the initial state is the basis state with all levels zero. -/
theorem C16_zero_state (hd : ∀ i, 0 < d i) :
    Proper .vec (regs d) (makeZeroState (regs d)) ∧
      ∀ x : Reg d, vecOf d (makeZeroState (regs d)) x = if ∀ i, (x i : Nat) = 0 then 1 else 0 := by
  obtain ⟨h1, _, h3⟩ := makeZeroState_ok (regs d) (by
    intro k hk
    unfold regs at hk
    rw [List.mem_reverse, List.mem_ofFn] at hk
    obtain ⟨i, rfl⟩ := hk
    exact hd i)
  refine ⟨h1, fun x => ?_⟩
  refine (h3 _ (levels_top x)).trans (if_congr ?_ rfl rfl)
  unfold allZero top
  constructor
  · intro h i
    exact h _ (List.mem_reverse.2 (List.mem_ofFn.2 ⟨i, rfl⟩))
  · intro h y hy
    rw [List.mem_reverse, List.mem_ofFn] at hy
    obtain ⟨i, rfl⟩ := hy
    exact h i

/-- C16: the basis state of given levels. -/
theorem C16_basis_state (s : Reg d) :
    ∃ e, makeBasisState (regs d) (List.ofFn fun i => (s i : Nat)).reverse = .ok e ∧ Proper .vec (regs d) e ∧
      ∀ x : Reg d, vecOf d e x = if x = s then 1 else 0 := by
  obtain ⟨e, he, hp, _, hv⟩ := makeBasisState_ok (regs d) (top s) (levels_top s)
  refine ⟨e, he, hp, fun x => ?_⟩
  exact (hv _ (levels_top x)).trans (if_congr ⟨fun h => top_injective h, fun h => by rw [h]⟩ rfl rfl)

/-! ### C17: gate diagrams -/

/-- C17: a gate diagram represents the controlled operator on the whole register, for every register, target, gate matrix and
controls on distinct other lines (listed in ascending order, as in the set of controls). -/
theorem C17_makeGateDD (q : Fin n) (mat : List ℂ) (hm : d q * d q ≤ mat.length) (C : List (Fin n)) (lev : Reg d)
    (hC : C.Pairwise (· < ·)) (hq : q ∉ C) :
    ∃ e, makeGateDD (regs d) mat (C.map fun c : Fin n => ((c : Nat), (lev c : Nat))) q = .ok e ∧ Proper .mat (regs d) e ∧
      ActsOnLine q (matOf d e) ∧
      matOf d e = controlled C.toFinset lev (embed1 q fun i j => mat.getD (d q * i + j) 0) := by
  obtain ⟨e, he, hp, hs, hv⟩ := makeGateDD_ok (regs d) mat (C.map fun c : Fin n => ((c : Nat), (lev c : Nat))) q
    (by
      rw [List.pairwise_map]
      exact hC)
    (by
      intro c hc
      obtain ⟨i, hi, rfl⟩ := List.mem_map.1 hc
      intro h
      exact hq (by rw [← Fin.ext (a := i) (b := q) h]; exact hi))
    (by rw [regs_length]; exact q.isLt)
    (by
      intro c hc _
      obtain ⟨i, hi, rfl⟩ := List.mem_map.1 hc
      rw [regs_getD]
      exact (lev i).isLt)
    (by rw [regs_getD]; exact hm)
  refine ⟨e, he, hp, ?_, ?_⟩
  · rintro x y ⟨i, hi, hne⟩
    apply hs _ _ (levels_top x) (levels_top y)
    rw [agree_top]
    intro h
    exact hne (h i hi)
  · funext x y
    refine (hv _ _ (levels_top x) (levels_top y)).trans ?_
    unfold gateEntry controlled embed1
    rw [regs_getD, levelAt_top, levelAt_top, regs_length]
    have hmet : Met (C.map fun c : Fin n => ((c : Nat), (lev c : Nat))) n (top y) ↔ ∀ i ∈ C.toFinset, y i = lev i := by
      constructor
      · intro h i hi
        have := h (i, lev i) (List.mem_map.2 ⟨i, List.mem_toFinset.1 hi, rfl⟩) i.isLt
        rw [levelAt_top] at this
        exact Fin.ext this
      · intro h c hc _
        obtain ⟨i, hi, rfl⟩ := List.mem_map.1 hc
        rw [levelAt_top, h i (List.mem_toFinset.2 hi)]
    rw [if_congr hmet rfl rfl, if_congr (agree_top q x y) rfl rfl]
    by_cases hc : ∀ i ∈ C.toFinset, y i = lev i
    · rw [if_pos hc, if_pos hc]
      by_cases hag : ∀ i, i ≠ q → x i = y i
      · rw [if_pos hag, if_pos hag]
      · rw [if_neg hag, if_neg hag]
    · rw [if_neg hc, if_neg hc]
      by_cases hxy : x = y
      · subst hxy
        rw [if_pos rfl, if_pos fun _ _ => rfl, if_pos rfl]
      · rw [if_neg hxy, if_neg (fun h => hxy (top_injective h))]
        split <;> rfl

/-- the hypotheses are met by a doubly controlled gate on a mixed register -/
example : ∃ (d : Fin 3 → Nat) (q : Fin 3) (C : List (Fin 3)) (mat : List ℂ) (_ : Reg d),
    d q * d q ≤ mat.length ∧ C.Pairwise (· < ·) ∧ q ∉ C ∧ C.length = 2 :=
  ⟨![2, 3, 4], 1, [0, 2], List.replicate 9 1, fun i => ⟨0, by fin_cases i <;> decide⟩, by simp, by decide, by decide, rfl⟩

/-- the hypotheses of C16 are met by gate diagrams and basis states of a mixed register -/
example : ∃ (d : Fin 3 → Nat) (x y : Edge (regs d)) (v w : Edge (regs d)), Proper .mat (regs d) x ∧ Proper .mat (regs d) y ∧
    ActsOnLine 1 (matOf d x) ∧ ActsOnLine 1 (matOf d y) ∧ Proper .vec (regs d) v ∧ Proper .vec (regs d) w ∧ v ≠ none ∧ w ≠ none ∧
      ∀ H, Reachable H Tables.empty := by
  let lev : Reg ![2, 3, 4] := fun i => ⟨1, by fin_cases i <;> decide⟩
  obtain ⟨x, _, hx, hx1, _⟩ := C17_makeGateDD (d := ![2, 3, 4]) 1 (List.replicate 9 1) (by simp) [0, 2] lev (by decide) (by decide)
  obtain ⟨y, _, hy, hy1, _⟩ := C17_makeGateDD (d := ![2, 3, 4]) 1 (List.replicate 9 2) (by simp) [2] lev (by decide) (by decide)
  obtain ⟨v, _, hv, hve⟩ := C16_basis_state (d := ![2, 3, 4]) lev
  refine ⟨![2, 3, 4], x, y, v, v, hx, hy, hx1, hy1, hv, hv, ?_, ?_, fun H => .new⟩ <;>
  · rintro rfl
    have := hve lev
    rw [if_pos rfl] at this
    exact zero_ne_one ((val_none _).symm.trans this)

/-! ### C16: matrices that cannot be built -/

/-- No proper diagram over registers of sizes 3 and 2 represents the tensor product of flip and shift. -/
theorem no_flip_shift (e : Edge [2, 3]) (hp : Proper .mat [2, 3] e)
    (h00 : ∀ a b, a < 3 → b < 3 → entry [2, 3] e [0, a] [0, b] = 0) (h11 : ∀ a b, a < 3 → b < 3 → entry [2, 3] e [1, a] [1, b] = 0)
    (h1 : entry [2, 3] e [0, 1] [1, 0] ≠ 0) (h2 : entry [2, 3] e [0, 0] [1, 1] = 0) : False := by
  rcases e with _ | ⟨w, n⟩
  · exact h1 (entry_none _ _)
  obtain ⟨hw, hlen, hpr, _, hflag⟩ := hp
  have hl3 : ∀ xs, Levels [3] xs → ∃ a, a < 3 ∧ xs = [a] := by
    intro xs hx
    obtain ⟨a, r, rfl, ha, hr⟩ := levels_cons_iff.1 hx
    rw [levels_nil_iff] at hr
    subst hr
    exact ⟨a, ha, rfl⟩
  have hz : ∀ i, i < 2 → at' n.edges (i * 2 + i) = none := by
    intro i hi
    apply eq_none_of_entry (proper_at' hpr _)
    intro xs ys hx hy
    obtain ⟨a, ha, rfl⟩ := hl3 xs hx
    obtain ⟨b, hb, rfl⟩ := hl3 ys hy
    have : entry [2, 3] (some (w, n)) (i :: [a]) (i :: [b]) = 0 := by
      rcases (by omega : i = 0 ∨ i = 1) with rfl | rfl
      · exact h00 a b ha hb
      · exact h11 a b ha hb
    rw [entry_cons, Nat.mul_comm 2 i] at this
    exact (mul_eq_zero.1 this).resolve_left hw
  have hsym : symOf (at' n.edges 1) = false := by
    by_contra hne
    have hs := sym_entry (proper_at' hpr 1) (by simpa using hne) [1] [0] (List.Forall₂.cons (by decide) List.Forall₂.nil) (List.Forall₂.cons (by decide) List.Forall₂.nil)
    rw [entry_cons] at h1 h2
    have h2' := (mul_eq_zero.1 h2).resolve_left hw
    apply h1
    change w * entry [3] (at' n.edges 1) [1] [0] = 0
    rw [hs]
    change entry [3] (at' n.edges 1) [0] [1] = 0 at h2'
    rw [h2', mul_zero]
  have hch := hflag rfl
  unfold checkSpecial at hch
  rw [if_pos] at hch
  · have hloop : symLoop 2 n.edges (pairs 2 2) = .error .outOfRange := by
      change symLoop 2 n.edges [(0, 0), (0, 1), (1, 0), (1, 1)] = _
      unfold symLoop
      rw [if_pos rfl]
      unfold symLoop
      rw [if_neg (by decide)]
      have : DD.transpose (at' n.edges (0 * 2 + 1)) = .error .outOfRange := by
        change DD.transpose (at' n.edges 1) = _
        rcases he : at' n.edges 1 with _ | ⟨a, m⟩
        · rw [he] at hsym; cases hsym
        · rw [he] at hsym
          unfold DD.transpose
          dsimp only
          have hsym : m.sym = false := hsym
          rw [if_neg (by rw [hsym]; decide), if_neg (by decide)]
      rw [this]
    rw [hloop] at hch
    cases hch
  · rw [List.all_eq_true]
    intro i hi
    rw [hz i (List.mem_range.1 hi)]
    rfl

private theorem tensor_entry {d : Fin 2 → Nat} (A : Matrix (Fin (d 1)) (Fin (d 1)) ℂ) (B : Matrix (Fin (d 0)) (Fin (d 0)) ℂ)
    (x y : Reg d) : (embed1 (X := LvOf d) 1 A * embed1 (X := LvOf d) 0 B : Matrix (Reg d) (Reg d) ℂ) x y =
      A (x 1) (y 1) * B (x 0) (y 0) := by
  rw [Matrix.mul_apply, Finset.sum_eq_single (Function.update x 1 (y 1))]
  · unfold embed1
    rw [if_pos, if_pos]
    · rw [Function.update_self, Function.update_of_ne (by decide)]
    · intro i hi
      have : i = 1 := by omega
      subst this
      rw [Function.update_self]
    · intro i hi
      rw [Function.update_of_ne hi]
  · intro z _ hz
    unfold embed1
    by_cases h1 : ∀ i, i ≠ 1 → x i = z i
    · rw [if_pos h1, if_neg, mul_zero]
      intro h0
      apply hz
      funext i
      by_cases hi : i = 1
      · subst hi
        rw [Function.update_self]
        exact h0 1 (by decide)
      · rw [Function.update_of_ne hi, h1 i hi]
    · rw [if_neg h1, zero_mul]
  · intro h
    exact absurd (Finset.mem_univ _) h

/-- C16 is violated for products of matrices: in a register of sizes 3 and 2, the product of a bit flip on line 1 and a cyclic
shift on line 0 throws, whatever was computed before, because the node to be made has a symmetric diagonal (here zero) and
non-symmetric children beside it, and `transpose` writes into an empty vector. -/
theorem C16_matrix_violated : ∃ (d : Fin 2 → Nat) (x y : Edge (regs d)),
    makeGateDD (regs d) [0, 1, 1, 0] [] 1 = .ok x ∧ makeGateDD (regs d) [0, 0, 1, 1, 0, 0, 0, 1, 0] [] 0 = .ok y ∧
      ∀ H t, Reachable H t → ∃ err, multiply H .mat (regs d) x y t = .error err := by
  obtain ⟨x, hx, hpx, _, hmx⟩ := C17_makeGateDD (d := ![3, 2]) 1 [0, 1, 1, 0] (by decide) [] (fun i => ⟨0, by fin_cases i <;> decide⟩)
    List.Pairwise.nil (by simp)
  obtain ⟨y, hy, hpy, _, hmy⟩ := C17_makeGateDD (d := ![3, 2]) 0 [0, 0, 1, 1, 0, 0, 0, 1, 0] (by decide) []
    (fun i => ⟨0, by fin_cases i <;> decide⟩) List.Pairwise.nil (by simp)
  refine ⟨![3, 2], x, y, hx, hy, fun H t ht => ?_⟩
  rcases hr : multiply H .mat (regs ![3, 2]) x y t with err | ⟨r, t'⟩
  · exact ⟨err, rfl⟩
  exfalso
  obtain ⟨_, hp, hm⟩ := C16_multiply_matrix_partial ht x y r hpx hpy t' hr
  have hone : ∀ (lev : Reg ![3, 2]) (A : Matrix (Reg ![3, 2]) (Reg ![3, 2]) ℂ), controlled ([] : List (Fin 2)).toFinset lev A = A := by
    intro lev A
    funext a b
    unfold controlled
    rw [if_pos]
    intro i hi
    simp at hi
  rw [hmx, hmy, hone, hone] at hm
  have hent : ∀ (a0 : Nat) (h0 : a0 < 3) (a1 : Nat) (h1 : a1 < 2) (b0 : Nat) (k0 : b0 < 3) (b1 : Nat) (k1 : b1 < 2),
      entry [2, 3] r [a1, a0] [b1, b0] =
        ([0, 1, 1, 0] : List ℂ).getD (2 * a1 + b1) 0 * ([0, 0, 1, 1, 0, 0, 0, 1, 0] : List ℂ).getD (3 * a0 + b0) 0 := by
    intro a0 h0 a1 h1 b0 k0 b1 k1
    have := congrFun (congrFun hm (Fin.cons (n := 1) (α := fun i => Fin (![3, 2] i)) ⟨a0, h0⟩ fun i => ⟨a1, by fin_cases i; exact h1⟩))
      (Fin.cons (n := 1) (α := fun i => Fin (![3, 2] i)) ⟨b0, k0⟩ fun i => ⟨b1, by fin_cases i; exact k1⟩)
    exact this.trans (tensor_entry (d := ![3, 2]) _ _ _ _)
  refine no_flip_shift r hp ?_ ?_ ?_ ?_
  · intro a b ha hb
    rw [hent a ha 0 (by decide) b hb 0 (by decide)]
    exact zero_mul _
  · intro a b ha hb
    rw [hent a ha 1 (by decide) b hb 1 (by decide)]
    exact zero_mul _
  · rw [hent 1 (by decide) 0 (by decide) 0 (by decide) 1 (by decide)]
    change (1 : ℂ) * 1 ≠ 0
    norm_num
  · rw [hent 0 (by decide) 0 (by decide) 1 (by decide) 1 (by decide)]
    change (1 : ℂ) * 0 = 0
    norm_num

/-! ### C53: inner products -/

/-- C53: the fidelity of two vector diagrams is the squared modulus of their inner product. -/
theorem C53_fidelity (x y : Edge (regs d)) (hx : Proper .vec (regs d) x) (hy : Proper .vec (regs d) y) :
    fidelity (regs d) x y = Complex.normSq (∑ i : Reg d, vecOf d x i * star (vecOf d y i)) := by
  have hf : fidelity (regs d) x y = Complex.normSq (innerRec (regs d) x y) := by
    rw [Complex.normSq_apply]; rfl
  rw [hf]
  rcases x with _ | ⟨a, p⟩
  · rw [innerRec_left]
    congr 1
    symm
    apply Finset.sum_eq_zero
    intro i _
    unfold vecOf
    rw [val_none, zero_mul]
  rcases y with _ | ⟨b, m⟩
  · rw [innerRec_right]
    congr 1
    symm
    apply Finset.sum_eq_zero
    intro i _
    unfold vecOf
    rw [val_none, star_zero, mul_zero]
  rw [innerRec_scale, innerRec_ok _ _ _ (proper_some hx one_ne_zero) (proper_some hy one_ne_zero), lsum_regs, Complex.normSq_mul,
    Complex.normSq_mul]
  have : (∑ i : Reg d, vecOf d (some (a, p)) i * star (vecOf d (some (b, m)) i)) =
      a * star b * ∑ i : Reg d, vecOf d (some (1, p)) i * star (vecOf d (some (1, m)) i) := by
    rw [Finset.mul_sum]
    refine Finset.sum_congr rfl fun i _ => ?_
    unfold vecOf
    rw [val_some a, val_some b, star_mul']
    ring
  rw [this, Complex.normSq_mul, Complex.normSq_mul]
  congr 2
  exact (Complex.normSq_conj b).symm

/-- C53, partial: the inner product itself, when the top weight of the second diagram is real. -/
theorem C53_inner_product_partial (x y : Edge (regs d)) (hx : Proper .vec (regs d) x) (hy : Proper .vec (regs d) y)
    (hreal : star (weight y) = weight y) :
    innerProduct (regs d) x y = ∑ i : Reg d, vecOf d x i * star (vecOf d y i) := by
  unfold innerProduct
  rcases x with _ | ⟨a, p⟩
  · rw [innerRec_left]
    symm
    apply Finset.sum_eq_zero
    intro i _
    unfold vecOf
    rw [val_none, zero_mul]
  rcases y with _ | ⟨b, m⟩
  · rw [innerRec_right]
    symm
    apply Finset.sum_eq_zero
    intro i _
    unfold vecOf
    rw [val_none, star_zero, mul_zero]
  rw [innerRec_scale, innerRec_ok _ _ _ (proper_some hx one_ne_zero) (proper_some hy one_ne_zero), lsum_regs, Finset.mul_sum]
  refine Finset.sum_congr rfl fun i _ => ?_
  unfold vecOf
  rw [val_some a, val_some b, star_mul', show star b = b from hreal]
  ring

/-- C53, exactly: the inner product returned is the true one times the top weight of the second diagram over its conjugate. -/
theorem C53_inner_product_exact (x y : Edge (regs d)) (hx : Proper .vec (regs d) x) (hy : Proper .vec (regs d) y) :
    star (weight y) * innerProduct (regs d) x y = weight y * ∑ i : Reg d, vecOf d x i * star (vecOf d y i) := by
  unfold innerProduct
  rcases x with _ | ⟨a, p⟩
  · rw [innerRec_left, mul_zero, Finset.sum_eq_zero, mul_zero]
    intro i _
    unfold vecOf
    rw [val_none, zero_mul]
  rcases y with _ | ⟨b, m⟩
  · show star (0 : ℂ) * _ = 0 * _
    rw [star_zero, zero_mul, zero_mul]
  rw [innerRec_scale, innerRec_ok _ _ _ (proper_some hx one_ne_zero) (proper_some hy one_ne_zero), lsum_regs, Finset.mul_sum,
    Finset.mul_sum, Finset.mul_sum]
  refine Finset.sum_congr rfl fun i _ => ?_
  unfold vecOf
  rw [val_some a, val_some b, star_mul']
  show star b * _ = b * _
  ring

/-- C53: so it is right exactly if that weight is real or the vectors are orthogonal. -/
theorem C53_inner_product_iff (x y : Edge (regs d)) (hx : Proper .vec (regs d) x) (hy : Proper .vec (regs d) y) :
    innerProduct (regs d) x y = ∑ i : Reg d, vecOf d x i * star (vecOf d y i) ↔
      star (weight y) = weight y ∨ ∑ i : Reg d, vecOf d x i * star (vecOf d y i) = 0 := by
  have h := C53_inner_product_exact x y hx hy
  constructor
  · intro he
    rw [he, ← sub_eq_zero, ← sub_mul] at h
    rcases mul_eq_zero.1 h with h | h
    · exact Or.inl (sub_eq_zero.1 h)
    · exact Or.inr h
  · rintro (hr | h0)
    · exact C53_inner_product_partial x y hx hy hr
    · rw [h0, mul_zero] at h
      rw [h0]
      rcases mul_eq_zero.1 h with h | h
      · have hw := star_eq_zero.1 h
        rcases y with _ | ⟨b, m⟩
        · exact innerRec_right _ _
        · exact absurd hw (proper_weight hy)
      · exact h

/-- C53 is violated by a second diagram with a phase on its top edge: that weight is not conjugated, so the inner product of
a state with itself is not 1. -/
theorem C53_inner_product_violated : ∃ (d : Fin 1 → Nat) (x : Edge (regs d)), Proper .vec (regs d) x ∧
    (∑ i : Reg d, vecOf d x i * star (vecOf d x i)) = 1 ∧ innerProduct (regs d) x x = -1 := by
  refine ⟨fun _ => 2, some (Complex.I, mkNode [leaf 1, none] false false), ⟨Complex.I_ne_zero, rfl, ?_, ⟨leaf 1, ?_, nofun⟩, nofun⟩, ?_, ?_⟩
  · intro e he
    rcases List.mem_cons.1 he with rfl | he
    · exact one_ne_zero
    rcases List.mem_cons.1 he with rfl | he
    · exact proper_none _
    · cases he
  · exact List.mem_cons_self
  · refine (lsum_regs (d := fun _ : Fin 1 => 2) fun p => val (regs fun _ : Fin 1 => 2) (some (Complex.I, mkNode [leaf 1, none] false false)) p *
      star (val (regs fun _ : Fin 1 => 2) (some (Complex.I, mkNode [leaf 1, none] false false)) p)).symm.trans ?_
    change (Complex.I * 1) * star (Complex.I * 1) + ((Complex.I * 0) * star (Complex.I * 0) + 0) = 1
    have : star Complex.I = -Complex.I := Complex.conj_I
    simp [this]
  · change ([(1 : ℂ) * star 1, 0].sum) * Complex.I * Complex.I = -1
    simp

/-! ### C54: single entries -/

private theorem valueByPathV_ok : ∀ (ds : List Nat) (e : Edge ds), Proper .vec ds e → ∀ (amp : ℂ) (xs : List Nat), Levels ds xs →
    valueByPathV ds e amp xs = .ok (val ds e xs * amp)
  | ds, none, _, amp, xs, _ => by
    rw [val_none]; unfold valueByPathV; rfl
  | [], some (w, _), _, amp, xs, _ => rfl
  | d :: ds, some (w, n), hp, amp, xs, hx => by
    obtain ⟨x, r, rfl, hxd, hr⟩ := levels_cons_iff.1 hx
    obtain ⟨_, hlen, hpr, _⟩ := hp
    unfold valueByPathV
    rw [if_pos (by rw [hlen]; change x < d * 1; omega), val_cons]
    by_cases hz : weight (at' n.edges x) = 0
    · rw [if_pos hz]
      rw [(weight_eq_zero (proper_at' hpr x)).1 hz, val_none, mul_zero, zero_mul]
    · rw [if_neg hz, valueByPathV_ok ds _ (proper_at' hpr x) _ _ hr]
      congr 1
      ring

/-- C54: reading one amplitude by the levels of the registers (from the top register down). -/
theorem C54_vector_entry (e : Edge (regs d)) (hp : Proper .vec (regs d) e) (x : Reg d) :
    valueByPathV (regs d) e 1 (List.ofFn fun i => (x i : Nat)).reverse = .ok (vecOf d e x) := by
  have := valueByPathV_ok (regs d) e hp 1 _ (levels_top x)
  rw [mul_one] at this
  exact this

private theorem reprOfIndex_ok : ∀ (ds xs : List Nat), Levels ds xs → reprOfIndex ds (index ds xs) ds.prod = xs
  | [], xs, h => by rw [levels_nil_iff.1 h]; rfl
  | d :: ds, xs, h => by
    obtain ⟨x, r, rfl, hxd, hr⟩ := levels_cons_iff.1 h
    have hlt := index_lt hr
    have hd : 0 < d := by omega
    have hprod : (d :: ds).prod / d = ds.prod := by rw [List.prod_cons]; exact Nat.mul_div_cancel_left _ hd
    unfold reprOfIndex
    rw [hprod]
    change (x * ds.prod + index ds r) / ds.prod :: reprOfIndex ds ((x * ds.prod + index ds r) % ds.prod) ds.prod = _
    have hpos : 0 < ds.prod := by omega
    rw [Nat.mul_comm x, Nat.mul_add_div hpos, Nat.div_eq_of_lt hlt, Nat.add_zero, Nat.mul_add_mod, Nat.mod_eq_of_lt hlt,
      reprOfIndex_ok ds r hr]

/-- C54: the digits of an index are the levels (from the top register down) it was built from. -/
theorem C54_digits (x : Reg d) :
    reprOfIndex (regs d) (index (List.ofFn d).reverse (List.ofFn fun i => (x i : Nat)).reverse) (regs d).prod =
      (List.ofFn fun i => (x i : Nat)).reverse :=
  reprOfIndex_ok _ _ (levels_top x)

/-- C54 is violated for matrices: reading the entry of row 1 of any matrix diagram throws, because the row is multiplied by the
number of edges instead of the number of columns. -/
theorem C54_matrix_entry_violated (e : Edge (regs d)) (x y : Reg d) (hn : e ≠ none)
    (hp : Proper .mat (regs d) e) (q : Fin n) (hlast : ∀ i, i ≤ q) (hx : (x q : Nat) ≠ 0) :
    valueByPathM (regs d) e 1 (List.ofFn fun i => (x i : Nat)).reverse (List.ofFn fun i => (y i : Nat)).reverse =
      .error .outOfRange := by
  obtain ⟨k, rfl⟩ : ∃ k, n = k + 1 := ⟨n - 1, by have := q.isLt; omega⟩
  have hq : q = Fin.last k := le_antisymm (Fin.le_last q) (hlast _)
  subst hq
  have h1 : regs d = d (Fin.last k) :: (List.ofFn fun i : Fin k => d i.castSucc).reverse := by
    unfold regs; rw [List.ofFn_succ', List.concat_eq_append, List.reverse_append]; rfl
  have h2 : ∀ z : Reg d, (List.ofFn fun i => (z i : Nat)).reverse =
      (z (Fin.last k) : Nat) :: (List.ofFn fun i : Fin k => (z i.castSucc : Nat)).reverse := by
    intro z; rw [List.ofFn_succ', List.concat_eq_append, List.reverse_append]; rfl
  rw [h2, h2]
  generalize regs d = ds at *
  subst h1
  rcases e with _ | ⟨w, m⟩
  · exact absurd rfl hn
  unfold valueByPathM
  rw [if_neg]
  intro hlt
  have : m.edges.length ≤ (x (Fin.last k) : Nat) * m.edges.length := Nat.le_mul_of_pos_left _ (Nat.pos_of_ne_zero hx)
  omega

private theorem valueByPathM_cases : ∀ (ds : List Nat) (e : Edge ds), Proper .mat ds e → ∀ (amp : ℂ) (xs ys : List Nat), Levels ds xs → Levels ds ys →
    (∀ v, valueByPathM ds e amp xs ys = .ok v → v = entry ds e xs ys * amp) ∧
    ((∀ x ∈ xs, x = 0) → ∃ v, valueByPathM ds e amp xs ys = .ok v)
  | ds, none, _, amp, xs, ys, _, _ => by
    have h : valueByPathM ds none amp xs ys = .ok (0 * amp) := by unfold valueByPathM; rfl
    unfold entry
    rw [h, val_none]
    exact ⟨fun v hv => (Except.ok.inj hv).symm, fun _ => ⟨_, rfl⟩⟩
  | [], some (w, _), _, amp, xs, ys, _, _ => ⟨fun v hv => (Except.ok.inj hv).symm, fun _ => ⟨_, rfl⟩⟩
  | d :: ds, some (w, n), hp, amp, xs, ys, hx, hy => by
    obtain ⟨x, r, rfl, hxd, hr⟩ := levels_cons_iff.1 hx
    obtain ⟨y, q, rfl, hyd, hq⟩ := levels_cons_iff.1 hy
    obtain ⟨_, hlen, hpr, _⟩ := hp
    have hlen' : n.edges.length = d * d := hlen
    unfold valueByPathM
    by_cases hx0 : x = 0
    · subst hx0
      have hdd : d ≤ d * d := Nat.le_mul_self d
      rw [if_pos (by rw [hlen']; omega)]
      have he : entry (d :: ds) (some (w, n)) (0 :: r) (y :: q) = w * entry ds (at' n.edges y) r q := by
        rw [entry_cons, Nat.mul_zero, Nat.zero_add]
      rw [he, Nat.zero_mul, Nat.zero_add]
      by_cases hz : weight (at' n.edges y) = 0
      · rw [if_pos hz]
        have : entry ds (at' n.edges y) r q = 0 := by
          unfold entry
          rw [(weight_eq_zero (proper_at' hpr y)).1 hz, val_none]
        rw [this]
        exact ⟨fun v hv => by rw [← Except.ok.inj hv]; ring, fun _ => ⟨_, rfl⟩⟩
      · rw [if_neg hz]
        obtain ⟨h1, h2⟩ := valueByPathM_cases ds _ (proper_at' hpr y) (w * amp) r q hr hq
        exact ⟨fun v hv => by rw [h1 v hv]; ring, fun h => h2 fun x hx => h x (by simp [hx])⟩
    · rw [if_neg]
      · exact ⟨fun v hv => (by cases hv), fun h => absurd (h x (by simp)) hx0⟩
      · intro hlt
        have : n.edges.length ≤ x * n.edges.length := Nat.le_mul_of_pos_left _ (Nat.pos_of_ne_zero hx0)
        omega

/-- What `getValueByPath` returns for a matrix, if it returns, is the entry asked for; and it returns for every entry of the first row. -/
theorem C54_matrix_entry_partial (e : Edge (regs d)) (hp : Proper .mat (regs d) e) (x y : Reg d) :
    (∀ v, valueByPathM (regs d) e 1 (List.ofFn fun i => (x i : Nat)).reverse (List.ofFn fun i => (y i : Nat)).reverse = .ok v → v = matOf d e x y) ∧
    ((∀ i, (x i : Nat) = 0) →
      valueByPathM (regs d) e 1 (List.ofFn fun i => (x i : Nat)).reverse (List.ofFn fun i => (y i : Nat)).reverse = .ok (matOf d e x y)) := by
  obtain ⟨h1, h2⟩ := valueByPathM_cases (regs d) e hp 1 _ _ (levels_top x) (levels_top y)
  have key : ∀ v, valueByPathM (regs d) e 1 (List.ofFn fun i => (x i : Nat)).reverse (List.ofFn fun i => (y i : Nat)).reverse = .ok v → v = matOf d e x y := by
    intro v hv
    have := h1 v hv
    rw [mul_one] at this
    exact this
  refine ⟨key, fun h => ?_⟩
  obtain ⟨v, hv⟩ := h2 (by
    intro k hk
    obtain ⟨i, rfl⟩ := List.mem_ofFn.1 (List.mem_reverse.1 hk)
    exact h i)
  have := key v hv
  subst this
  exact hv

/-- A gate diagram on a mixed register: its entries in the first row are read, here those of a gate on the middle line. -/
example : ∃ (d : Fin 3 → Nat) (e : Edge (regs d)) (x y : Reg d), x ≠ y ∧
    valueByPathM (regs d) e 1 (List.ofFn fun i => (x i : Nat)).reverse (List.ofFn fun i => (y i : Nat)).reverse = .ok 5 := by
  obtain ⟨e, _, hp, _, hv⟩ := C17_makeGateDD (d := ![2, 3, 4]) 1 (List.replicate 9 5) (by simp) [] (fun i => ⟨0, by fin_cases i <;> decide⟩)
    (by decide) (by decide)
  let x : Reg ![2, 3, 4] := fun i => ⟨0, by fin_cases i <;> decide⟩
  let y : Reg ![2, 3, 4] := fun i => ⟨if i = 1 then 2 else 0, by fin_cases i <;> decide⟩
  refine ⟨![2, 3, 4], e, x, y, fun h => absurd (congrArg Fin.val (congrFun h 1)) (by decide), ?_⟩
  rw [(C54_matrix_entry_partial e hp x y).2 fun _ => rfl, hv]
  refine congrArg Except.ok ?_
  unfold controlled embed1
  rw [if_pos (by simp), if_pos]
  · rfl
  · intro i hi
    exact Fin.ext (by simp [x, y, hi])

end Qudits
