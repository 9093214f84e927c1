import Verif.Model.Shots
import Mathlib.Tactic.Linarith
import Mathlib.Tactic.Ring
import Mathlib.Tactic.FieldSimp
import Mathlib.Algebra.Order.BigOperators.Group.List
import Mathlib.Data.List.Forall2
/- Lemmas for C83: drawing a position, and the pool. -/
namespace Qudits.Shots

/-! ### choice -/

theorem cumsum_last (p : List ℝ) (hp : p ≠ []) (acc e : ℝ) : (cumsum acc p).getLastD e = acc + p.sum := by
  induction p generalizing acc e with
  | nil => exact absurd rfl hp
  | cons x l ih =>
    unfold cumsum
    rw [List.getLastD_cons]
    cases l with
    | nil => simp [cumsum]
    | cons y l =>
      rw [ih (by simp)]
      simp only [List.sum_cons]
      ring

theorem countP_zero {p : List ℝ} (hp : ∀ x ∈ p, 0 ≤ x) {T u acc : ℝ} (hT : 0 < T) (h : u * T < acc) :
    ((cumsum acc p).map fun c => c / T).countP (fun c => decide (c ≤ u)) = 0 := by
  induction p generalizing acc with
  | nil => rfl
  | cons x l ih =>
    have hx := hp x (by simp)
    unfold cumsum
    rw [List.map_cons, List.countP_cons_of_neg, ih (fun y hy => hp y (by simp [hy])) (by linarith)]
    simp only [decide_eq_true_eq, not_le]
    rw [lt_div_iff₀ hT]
    linarith

theorem countP_eq {p : List ℝ} (hp : ∀ x ∈ p, 0 ≤ x) {T u acc : ℝ} (hT : 0 < T) (h : acc ≤ u * T) {i : Nat} (hi : i < p.length) :
    ((cumsum acc p).map fun c => c / T).countP (fun c => decide (c ≤ u)) = i ↔
      acc + (p.take i).sum ≤ u * T ∧ u * T < acc + (p.take (i + 1)).sum := by
  induction p generalizing acc i with
  | nil => simp at hi
  | cons x l ih =>
    have hl : ∀ y ∈ l, 0 ≤ y := fun y hy => hp y (by simp [hy])
    have hx := hp x (by simp)
    unfold cumsum
    rw [List.map_cons]
    by_cases hc : acc + x ≤ u * T
    · rw [List.countP_cons_of_pos (by simpa [div_le_iff₀ hT] using hc)]
      cases i with
      | zero =>
        simp only [List.take_zero, List.sum_nil, List.take_succ_cons, List.sum_cons]
        constructor
        · intro h; omega
        · rintro ⟨-, h2⟩; linarith
      | succ i =>
        rw [Nat.add_right_cancel_iff, ih hl hc (by simpa using hi)]
        simp only [List.take_succ_cons, List.sum_cons]
        rw [add_assoc, add_assoc]
    · rw [List.countP_cons_of_neg (by simpa [lt_div_iff₀ hT] using hc), countP_zero hl hT (not_le.1 hc)]
      cases i with
      | zero =>
        simp only [List.take_zero, List.sum_nil, List.take_succ_cons, List.sum_cons, true_iff]
        constructor <;> linarith
      | succ i =>
        have h0 : 0 ≤ (l.take i).sum := List.sum_nonneg fun y hy => hl y (List.mem_of_mem_take hy)
        simp only [List.take_succ_cons, List.sum_cons]
        constructor
        · intro h; omega
        · rintro ⟨h1, -⟩; linarith

theorem countP_lt {p : List ℝ} (hp : ∀ x ∈ p, 0 ≤ x) {T u acc : ℝ} (hT : 0 < T) (hne : p ≠ []) (h : u * T < acc + p.sum) :
    ((cumsum acc p).map fun c => c / T).countP (fun c => decide (c ≤ u)) < p.length := by
  induction p generalizing acc with
  | nil => exact absurd rfl hne
  | cons x l ih =>
    have hl : ∀ y ∈ l, 0 ≤ y := fun y hy => hp y (by simp [hy])
    unfold cumsum
    rw [List.map_cons, List.length_cons]
    by_cases hc : acc + x ≤ u * T
    · rw [List.countP_cons_of_pos (by simpa [div_le_iff₀ hT] using hc)]
      have : l ≠ [] := by
        rintro rfl
        simp at h
        linarith
      have := ih hl this (acc := acc + x) (by rw [List.sum_cons] at h; linarith)
      omega
    · rw [List.countP_cons_of_neg (by simpa [lt_div_iff₀ hT] using hc), countP_zero hl hT (not_le.1 hc)]
      omega

/-- The positions are chosen by intervals as long as their share of the sum. -/
theorem choice_spec {p : List ℝ} (hp : ∀ x ∈ p, 0 ≤ x) (hs : |p.sum - 1| ≤ atol) {u : ℝ} (h0 : 0 ≤ u) (h1 : u < 1) :
    (∃ i, i < p.length ∧ choice p u = .ok i) ∧
    ∀ i, i < p.length → (choice p u = .ok i ↔ (p.take i).sum ≤ u * p.sum ∧ u * p.sum < (p.take (i + 1)).sum) := by
  have hpos : 0 < p.sum := by
    have ha : atol < 1 := by unfold atol; norm_num
    have := (abs_le.1 hs).1
    linarith
  have hne : p ≠ [] := by rintro rfl; simp at hpos
  have hc : choice p u = .ok (((cumsum 0 p).map fun c => c / p.sum).countP fun c => decide (c ≤ u)) := by
    unfold choice
    rw [if_neg hne, if_neg (by push Not; exact hp), if_neg (not_lt.2 hs)]
    dsimp only
    rw [cumsum_last p hne, zero_add]
  rw [hc]
  constructor
  · exact ⟨_, countP_lt hp hpos hne (by rw [zero_add]; nlinarith), rfl⟩
  · intro i hi
    rw [Except.ok.injEq, countP_eq hp hpos (by positivity) hi, zero_add, zero_add]

/-! ### the pool -/

theorem chunkSize_pos {n : Nat} (hn : 0 < n) (p : Nat) : 0 < chunkSize n p := by
  unfold chunkSize
  split_ifs with h
  · by_cases hp : p = 0
    · subst hp
      rw [Nat.zero_mul, Nat.mod_zero] at h
      omega
    · have hle : p * 4 ≤ n := by
        by_contra hlt
        rw [Nat.mod_eq_of_lt (by omega)] at h
        omega
      exact Nat.div_pos hle (by omega)
  · exact Nat.succ_pos _

theorem chunks_flatten {α : Type} (size : Nat) (hs : 0 < size) : ∀ (C : Nat) (L : List α), L.length ≤ C * size →
    ((List.range C).map fun c => (L.drop (c * size)).take size).flatten = L
  | 0, L, h => by
    have : L = [] := List.length_eq_zero_iff.1 (by omega)
    simp [this]
  | C + 1, L, h => by
    have ih := chunks_flatten size hs C (L.drop size) (by rw [List.length_drop]; rw [Nat.add_mul] at h; omega)
    rw [List.range_succ_eq_map, List.map_cons, List.map_map, List.flatten_cons]
    have : ((fun c => (L.drop (c * size)).take size) ∘ Nat.succ) = fun c => ((L.drop size).drop (c * size)).take size := by
      funext c
      simp only [Function.comp, List.drop_drop]
      congr 2
      rw [Nat.succ_eq_add_one, Nat.add_mul]
      omega
    rw [this, ih, Nat.zero_mul, List.drop_zero, List.take_append_drop]

theorem mapM_ok {E α β : Type} {f : α → Except E β} : ∀ {l : List α} {r : List β}, l.mapM f = .ok r → List.Forall₂ (fun a b => f a = .ok b) l r
  | [], r, h => by
    rw [List.mapM_nil] at h
    cases h
    exact .nil
  | a :: l, r, h => by
    rw [List.mapM_cons] at h
    cases ha : f a with
    | error e => rw [ha] at h; cases h
    | ok b =>
      rw [ha] at h
      cases hl : l.mapM f with
      | error e => simp only [bind, Except.bind, hl] at h; cases h
      | ok bs =>
        simp only [bind, Except.bind, hl, pure, Except.pure] at h
        cases h
        exact .cons ha (mapM_ok hl)

theorem mapM_exists {E α β : Type} {f : α → Except E β} : ∀ {l : List α}, (∀ a ∈ l, ∃ b, f a = .ok b) → ∃ r, l.mapM f = .ok r
  | [], _ => ⟨[], rfl⟩
  | a :: l, h => by
    obtain ⟨b, hb⟩ := h a (by simp)
    obtain ⟨r, hr⟩ := mapM_exists (l := l) fun x hx => h x (by simp [hx])
    exact ⟨b :: r, by rw [List.mapM_cons, hb]; simp only [bind, Except.bind, hr, pure, Except.pure]⟩

theorem forall₂_flatten {α β : Type} {R : α → β → Prop} {ls : List (List α)} {rs : List (List β)} (h : List.Forall₂ (List.Forall₂ R) ls rs) :
    List.Forall₂ R ls.flatten rs.flatten := by
  induction h with
  | nil => exact .nil
  | cons h _ ih => exact List.rel_append h ih

theorem chunks_range (n p : Nat) (hn : 0 < n) :
    ((List.range ((n + chunkSize n p - 1) / chunkSize n p)).map (chunk n (chunkSize n p))).flatten = List.range n := by
  have hs := chunkSize_pos hn p
  apply chunks_flatten _ hs
  rw [List.length_range]
  have := Nat.lt_div_mul_add hs (a := n + chunkSize n p - 1)
  omega

/-- If the results of every chunk are related to its shots, then the results are related to the shots. -/
theorem poolMap_rel {E R : Type} {p n : Nat} (hn : 0 < n) {work : List Nat → Except E (List R)} {Rel : Nat → R → Prop}
    (hw : ∀ c rs, work (chunk n (chunkSize n p) c) = .ok rs → List.Forall₂ Rel (chunk n (chunkSize n p) c) rs) {l : List R}
    (h : poolMap p n work = .ok l) : List.Forall₂ Rel (List.range n) l := by
  unfold poolMap at h
  dsimp only at h
  cases hm : (List.range ((n + chunkSize n p - 1) / chunkSize n p)).mapM fun c => work (chunk n (chunkSize n p) c) with
  | error e => rw [hm] at h; cases h
  | ok parts =>
    rw [hm] at h
    cases h
    rw [← chunks_range n p hn]
    apply forall₂_flatten
    rw [List.forall₂_map_left_iff]
    exact (mapM_ok hm).imp fun c rs hc => hw c rs hc

theorem poolMap_exists {E R : Type} {p n : Nat} {work : List Nat → Except E (List R)} (hw : ∀ is, ∃ rs, work is = .ok rs) :
    ∃ l, poolMap p n work = .ok l := by
  unfold poolMap
  dsimp only
  obtain ⟨parts, hp⟩ := mapM_exists (l := List.range ((n + chunkSize n p - 1) / chunkSize n p))
    (f := fun c => work (chunk n (chunkSize n p) c)) fun c _ => hw _
  rw [hp]
  exact ⟨_, rfl⟩

/-! ### the chunks of tnsim -/

/-- the state of the shot number `j` of a chunk -/
def stateNo (state : Nat → Except PyErr (List ℂ × Nat)) (off : Nat) : Nat → Except PyErr (List ℂ × Nat)
  | 0 => state off
  | j + 1 => do
    let r ← state off
    stateNo state r.2 j

theorem tnChunk_ok {R : Type} {state : Nat → Except PyErr (List ℂ × Nat)} {finish : Nat → List ℂ → Except PyErr R} :
    ∀ {off : Nat} {is : List Nat} {rs : List R}, tnChunk state finish off is = .ok rs → rs.length = is.length ∧
      ∀ j i r, is[j]? = some i → rs[j]? = some r → ∃ v o, stateNo state off j = .ok (v, o) ∧ finish i v = .ok r
  | off, [], rs, h => by
    cases h
    exact ⟨rfl, fun j i r h => by simp at h⟩
  | off, i :: is, rs, h => by
    unfold tnChunk at h
    cases hs : state off with
    | error e => rw [hs] at h; cases h
    | ok vo =>
      obtain ⟨v, o⟩ := vo
      simp only [hs, bind, Except.bind] at h
      cases hf : finish i v with
      | error e => rw [hf] at h; cases h
      | ok r =>
        simp only [hf] at h
        cases ht : tnChunk state finish o is with
        | error e => rw [ht] at h; cases h
        | ok rs' =>
          rw [ht] at h
          cases h
          obtain ⟨h1, h2⟩ := tnChunk_ok ht
          refine ⟨by simp [h1], ?_⟩
          intro j i' r' hi hr
          cases j with
          | zero =>
            simp only [List.getElem?_cons_zero, Option.some.injEq] at hi hr
            subst hi hr
            exact ⟨v, o, hs, hf⟩
          | succ j =>
            obtain ⟨v', o', k1, k2⟩ := h2 j i' r' (by simpa using hi) (by simpa using hr)
            refine ⟨v', o', ?_, k2⟩
            unfold stateNo
            rw [hs]
            exact k1

/-- every state of a chunk is a state made from some position of the generator on -/
theorem stateNo_state {state : Nat → Except PyErr (List ℂ × Nat)} : ∀ {j off : Nat} {v : List ℂ} {o : Nat}, stateNo state off j = .ok (v, o) →
    ∃ off', state off' = .ok (v, o)
  | 0, off, v, o, h => ⟨off, h⟩
  | j + 1, off, v, o, h => by
    unfold stateNo at h
    cases hs : state off with
    | error e => rw [hs] at h; cases h
    | ok r => rw [hs] at h; exact stateNo_state h

theorem tnChunk_exists {R : Type} {state : Nat → Except PyErr (List ℂ × Nat)} {finish : Nat → List ℂ → Except PyErr R}
    (h : ∀ off, ∃ v o, state off = .ok (v, o) ∧ ∀ i, ∃ r, finish i v = .ok r) : ∀ (off : Nat) (is : List Nat), ∃ rs, tnChunk state finish off is = .ok rs
  | _, [] => ⟨[], rfl⟩
  | off, i :: is => by
    obtain ⟨v, o, hs, hf⟩ := h off
    obtain ⟨r, hr⟩ := hf i
    obtain ⟨rs, hrs⟩ := tnChunk_exists h o is
    unfold tnChunk
    simp only [hs, bind, Except.bind, hr, hrs]
    exact ⟨_, rfl⟩

/-- Shot `i` of a pool of chunks uses the state number `i` modulo the chunk size. -/
theorem tn_shots {R : Type} {state : Nat → Except PyErr (List ℂ × Nat)} {finish : Nat → List ℂ → Except PyErr R} {p n : Nat} (hn : 0 < n) {l : List R}
    (h : poolMap p n (tnChunk state finish 0) = .ok l) :
    List.Forall₂ (fun i r => ∃ v o, stateNo state 0 (i % chunkSize n p) = .ok (v, o) ∧ finish i v = .ok r) (List.range n) l := by
  have hs := chunkSize_pos hn p
  refine poolMap_rel hn ?_ h
  intro c rs hrs
  obtain ⟨h1, h2⟩ := tnChunk_ok hrs
  rw [List.forall₂_iff_get]
  refine ⟨h1.symm, ?_⟩
  intro j hj1 hj2
  obtain ⟨v, o, e1, e2⟩ := h2 j _ _ (List.getElem?_eq_getElem hj1) (List.getElem?_eq_getElem hj2)
  refine ⟨v, o, ?_, e2⟩
  have hi : (chunk n (chunkSize n p) c)[j] = c * chunkSize n p + j := by
    simp only [chunk, List.getElem_take, List.getElem_drop, List.getElem_range]
  have hj : j < chunkSize n p := by
    unfold chunk at hj1
    rw [List.length_take] at hj1
    omega
  rw [List.get_eq_getElem, hi, Nat.mul_comm, Nat.mul_add_mod, Nat.mod_eq_of_lt hj]
  exact e1

end Qudits.Shots
