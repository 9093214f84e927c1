import Verif.Lemmas.Misim
import Verif.Model.Spread
import Verif.Spec.SpreadSpec
/- Gates acting on basis states given by the numbers of their levels, and the product of the gates of `spread`. -/
namespace Qudits.DD
open Spec Matrix Classical

variable {n : Nat} {d : Fin n → Nat} {H : Hashes}

/-- the basis state whose levels are the numbers `f` -/
noncomputable def dl (d : Fin n → Nat) (f : Fin n → Nat) : Reg d → ℂ := fun x => if ∀ i, (x i : Nat) = f i then 1 else 0

theorem mulVec_dl (M : Matrix (Reg d) (Reg d) ℂ) (f : Fin n → Nat) (hf : ∀ i, f i < d i) :
    M.mulVec (dl d f) = fun x => M x fun i => ⟨f i, hf i⟩ := by
  funext x
  unfold Matrix.mulVec dotProduct dl
  rw [Finset.sum_eq_single (fun i => ⟨f i, hf i⟩ : Reg d)]
  · rw [if_pos (fun _ => rfl), mul_one]
  · intro b _ hb
    rw [if_neg (fun h => hb (funext fun i => Fin.ext (h i))), mul_zero]
  · intro h; exact absurd (Finset.mem_univ _) h

theorem shift_dl (c q : Fin n) (g : Nat → Nat) (f : Fin n → Nat) (hf : ∀ i, f i < d i) :
    (shiftOp d c q g).mulVec (dl d f) = dl d (Function.update f q ((f q + g (f c)) % d q)) := by
  rw [mulVec_dl _ f hf]
  funext x
  unfold shiftOp dl
  refine if_congr ?_ rfl rfl
  constructor
  · rintro ⟨h1, h2⟩ i
    by_cases hi : i = q
    · subst hi; rw [Function.update_self]; exact h2
    · rw [Function.update_of_ne hi, h1 i hi]
  · intro h
    refine ⟨fun i hi => ?_, ?_⟩
    · have := h i
      rw [Function.update_of_ne hi] at this
      exact Fin.ext this
    · have := h q
      rwa [Function.update_self] at this

theorem shiftAdj_dl (c q : Fin n) (hcq : c ≠ q) (g : Nat → Nat) (f : Fin n → Nat) (hf : ∀ i, f i < d i) (v : Nat) (hv : v < d q)
    (h : (v + g (f c)) % d q = f q) :
    ((shiftOp d c q g)ᴴ).mulVec (dl d f) = dl d (Function.update f q v) := by
  rw [mulVec_dl _ f hf]
  funext x
  rw [Matrix.conjTranspose_apply]
  unfold shiftOp dl
  have key : ((∀ i, i ≠ q → (⟨f i, hf i⟩ : Fin (d i)) = x i) ∧ f q = (x q + g (x c)) % d q) ↔ ∀ i, (x i : Nat) = Function.update f q v i := by
    constructor
    · rintro ⟨h1, h2⟩ i
      by_cases hi : i = q
      · subst hi
        rw [Function.update_self]
        have hc : (x c : Nat) = f c := by rw [← h1 c hcq]
        rw [hc, ← h] at h2
        have h3 : v ≡ x i [MOD d i] := Nat.ModEq.add_right_cancel' _ h2
        have := h3
        unfold Nat.ModEq at this
        rw [Nat.mod_eq_of_lt hv, Nat.mod_eq_of_lt (x i).isLt] at this
        exact this.symm
      · rw [Function.update_of_ne hi, ← h1 i hi]
    · intro h1
      have hc := h1 c
      rw [Function.update_of_ne hcq] at hc
      have hq := h1 q
      rw [Function.update_self] at hq
      refine ⟨fun i hi => ?_, by rw [hc, hq, h]⟩
      have := h1 i
      rw [Function.update_of_ne hi] at this
      exact Fin.ext this.symm
  by_cases hk : ∀ i, (x i : Nat) = Function.update f q v i
  · rw [if_pos (key.2 hk), if_pos hk, star_one]
  · rw [if_neg (fun k => hk (key.1 k)), if_neg hk, star_zero]

/-- a sum taken back `m` times from line `q` when line `c` is at level 0 -/
theorem sums_zero (c q : Fin n) (hcq : c ≠ q) (f : Fin n → Nat) (hf : ∀ i, f i < d i) (h0 : f c = 0) : ∀ m,
    (((shiftOp d c q id)ᴴ) ^ m).mulVec (dl d f) = dl d f
  | 0 => by rw [pow_zero, Matrix.one_mulVec]
  | m + 1 => by
    rw [pow_succ, ← Matrix.mulVec_mulVec, shiftAdj_dl c q hcq id f hf (f q) (hf q) (by rw [h0]; exact Nat.mod_eq_of_lt (hf q)),
      Function.update_eq_self]
    exact sums_zero c q hcq f hf h0 m

/-- a sum taken back `m` times from line `q` at level `m` when line `c` is at level 1 -/
theorem sums_one (c q : Fin n) (hcq : c ≠ q) : ∀ (m : Nat) (f : Fin n → Nat), (∀ i, f i < d i) → f c = 1 → f q = m →
    (((shiftOp d c q id)ᴴ) ^ m).mulVec (dl d f) = dl d (Function.update f q 0)
  | 0, f, _, _, hq => by rw [pow_zero, Matrix.one_mulVec, ← hq, Function.update_eq_self]
  | m + 1, f, hf, h1, hq => by
    have hlt : m + 1 < d q := hq ▸ hf q
    rw [pow_succ, ← Matrix.mulVec_mulVec, shiftAdj_dl c q hcq id f hf m (by omega) (by rw [h1, hq]; exact Nat.mod_eq_of_lt hlt)]
    rw [sums_one c q hcq m (Function.update f q m) (fun i => ?_) (by rw [Function.update_of_ne hcq]; exact h1) (Function.update_self ..),
      Function.update_idem]
    by_cases hi : i = q
    · subst hi; rw [Function.update_self]; omega
    · rw [Function.update_of_ne hi]; exact hf i

/-! ### the steps for the further lines -/

/-- the two gates of a further line, the second one `j` times -/
noncomputable def stepOp (d : Fin n → Nat) (L : Nat → Fin n) (j : Nat) : Matrix (Reg d) (Reg d) ℂ :=
  ((shiftOp d (L j) (L 1) id)ᴴ) ^ j * shiftOp d (L 1) (L j) fun v => if v = j then 1 else 0

theorem step_other (L : Nat → Fin n) (j : Nat) (hL : L j ≠ L 1) (f : Fin n → Nat) (hf : ∀ i, f i < d i) (h0 : f (L j) = 0)
    (h1 : f (L 1) ≠ j) : (stepOp d L j).mulVec (dl d f) = dl d f := by
  unfold stepOp
  rw [← Matrix.mulVec_mulVec, shift_dl _ _ _ f hf, if_neg h1, Nat.add_zero, Nat.mod_eq_of_lt (hf _), Function.update_eq_self,
    sums_zero _ _ hL f hf h0]

theorem step_own (L : Nat → Fin n) (j : Nat) (hL : L j ≠ L 1) (f : Fin n → Nat) (hf : ∀ i, f i < d i) (h0 : f (L j) = 0)
    (h1 : f (L 1) = j) (h2 : 2 ≤ d (L j)) :
    (stepOp d L j).mulVec (dl d f) = dl d (Function.update (Function.update f (L j) 1) (L 1) 0) := by
  unfold stepOp
  have e : (f (L j) + 1) % d (L j) = 1 := by rw [h0]; exact Nat.mod_eq_of_lt h2
  rw [← Matrix.mulVec_mulVec, shift_dl _ _ _ f hf, if_pos h1, e]
  refine sums_one _ _ hL j _ (fun i => ?_) (Function.update_self ..) ?_
  · by_cases hi : i = L j
    · subst hi; rw [Function.update_self]; omega
    · rw [Function.update_of_ne hi]; exact hf i
  · rw [Function.update_of_ne (Ne.symm hL)]; exact h1

/-- the steps one after the other -/
noncomputable def steps (d : Fin n → Nat) (L : Nat → Fin n) : List Nat → (Reg d → ℂ) → Reg d → ℂ
  | [], v => v
  | j :: js, v => steps d L js ((stepOp d L j).mulVec v)

theorem steps_add (L : Nat → Fin n) : ∀ (js : List Nat) (v w : Reg d → ℂ), steps d L js (v + w) = steps d L js v + steps d L js w
  | [], _, _ => rfl
  | j :: js, v, w => by unfold steps; rw [Matrix.mulVec_add, steps_add]

theorem steps_smul (L : Nat → Fin n) : ∀ (js : List Nat) (a : ℂ) (v : Reg d → ℂ), steps d L js (a • v) = a • steps d L js v
  | [], _, _ => rfl
  | j :: js, a, v => by unfold steps; rw [Matrix.mulVec_smul, steps_smul]

theorem steps_zero (L : Nat → Fin n) (js : List Nat) : steps d L js 0 = 0 := by
  have := steps_smul (d := d) L js 0 0
  rwa [zero_smul, zero_smul] at this

theorem steps_sum (L : Nat → Fin n) (js : List Nat) {ι : Type} (s : Finset ι) (v : ι → Reg d → ℂ) :
    steps d L js (∑ i ∈ s, v i) = ∑ i ∈ s, steps d L js (v i) := by
  induction s using Finset.induction_on with
  | empty => rw [Finset.sum_empty, Finset.sum_empty, steps_zero]
  | insert a s ha ih => rw [Finset.sum_insert ha, Finset.sum_insert ha, steps_add, ih]

theorem steps_keep (L : Nat → Fin n) : ∀ (js : List Nat) (f : Fin n → Nat), (∀ i, f i < d i) → (∀ j ∈ js, L j ≠ L 1 ∧ f (L j) = 0 ∧ f (L 1) ≠ j) →
    steps d L js (dl d f) = dl d f
  | [], _, _, _ => rfl
  | j :: js, f, hf, h => by
    obtain ⟨h1, h2, h3⟩ := h j (List.mem_cons_self ..)
    unfold steps
    rw [step_other L j h1 f hf h2 h3]
    exact steps_keep L js f hf fun j' hj' => h j' (List.mem_cons_of_mem _ hj')

theorem steps_move (L : Nat → Fin n) (a : Nat) (h2 : 2 ≤ d (L a)) : ∀ (js : List Nat) (f : Fin n → Nat), (∀ i, f i < d i) → js.Nodup → a ∈ js →
    (∀ j ∈ js, L j ≠ L 1 ∧ f (L j) = 0 ∧ j ≠ 0 ∧ (j ≠ a → L j ≠ L a)) → f (L 1) = a →
    steps d L js (dl d f) = dl d (Function.update (Function.update f (L a) 1) (L 1) 0)
  | j :: js, f, hf, hnd, ha, h, h1 => by
    obtain ⟨e1, e2, e3, e4⟩ := h j (List.mem_cons_self ..)
    have hnd' := List.nodup_cons.1 hnd
    unfold steps
    by_cases hja : j = a
    · subst hja
      rw [step_own L j e1 f hf e2 h1 h2]
      have hz : 0 < d (L 1) := by have := hf (L 1); omega
      refine steps_keep L js _ (fun i => ?_) fun j' hj' => ?_
      · by_cases hi : i = L 1
        · subst hi; rw [Function.update_self]; exact hz
        · rw [Function.update_of_ne hi]
          by_cases hi' : i = L j
          · subst hi'; rw [Function.update_self]; omega
          · rw [Function.update_of_ne hi']; exact hf i
      · obtain ⟨k1, k2, k3, k4⟩ := h j' (List.mem_cons_of_mem _ hj')
        have hne : j' ≠ j := fun k => hnd'.1 (k ▸ hj')
        refine ⟨k1, ?_, ?_⟩
        · rw [Function.update_of_ne k1, Function.update_of_ne (k4 hne)]; exact k2
        · rw [Function.update_self]; exact Ne.symm k3
    · rw [step_other L j e1 f hf e2 (by rw [h1]; exact Ne.symm hja)]
      refine steps_move L a h2 js f hf hnd'.2 ?_ (fun j' hj' => h j' (List.mem_cons_of_mem _ hj')) h1
      rcases List.mem_cons.1 ha with h' | h'
      · exact absurd h'.symm hja
      · exact h'

/-! ### the whole product -/

/-- the gate that puts line `q` from level 0 into all levels evenly, when line `c` is at level 1 -/
def EvenOn (d : Fin n → Nat) (c q : Fin n) (M : Matrix (Reg d) (Reg d) ℂ) : Prop :=
  ∀ x y : Reg d, M x y = if (y c : Nat) = 1 then (if ∀ i, i ≠ q → x i = y i then ((1 / Real.sqrt (d q) : ℝ) : ℂ) * omg (d q) ^ ((x q : Nat) * (y q : Nat)) else 0)
    else if x = y then 1 else 0

theorem even_other (c q : Fin n) (M : Matrix (Reg d) (Reg d) ℂ) (hM : EvenOn d c q M) (f : Fin n → Nat) (hf : ∀ i, f i < d i) (h : f c ≠ 1) :
    M.mulVec (dl d f) = dl d f := by
  rw [mulVec_dl _ f hf]
  funext x
  rw [hM]
  rw [if_neg h]
  unfold dl
  refine if_congr ?_ rfl rfl
  exact ⟨fun k i => by rw [k], fun k => funext fun i => Fin.ext (k i)⟩

theorem even_own (c q : Fin n) (M : Matrix (Reg d) (Reg d) ℂ) (hM : EvenOn d c q M) (f : Fin n → Nat) (hf : ∀ i, f i < d i) (h : f c = 1)
    (h0 : f q = 0) :
    M.mulVec (dl d f) = ∑ a ∈ Finset.range (d q), ((1 / Real.sqrt (d q) : ℝ) : ℂ) • dl d (Function.update f q a) := by
  rw [mulVec_dl _ f hf]
  funext x
  rw [hM, if_pos h, Finset.sum_apply]
  rw [show ((⟨f q, hf q⟩ : Fin (d q)) : Nat) = 0 from h0, Nat.mul_zero, pow_zero, mul_one]
  by_cases hx : ∀ i, i ≠ q → x i = ⟨f i, hf i⟩
  · rw [if_pos hx, Finset.sum_eq_single (x q : Nat)]
    · rw [Pi.smul_apply, smul_eq_mul]
      unfold dl
      rw [if_pos, mul_one]
      intro i
      by_cases hi : i = q
      · subst hi; rw [Function.update_self]
      · rw [Function.update_of_ne hi, hx i hi]
    · intro b _ hb
      rw [Pi.smul_apply, smul_eq_mul]
      unfold dl
      rw [if_neg, mul_zero]
      intro k
      have := k q
      rw [Function.update_self] at this
      exact hb this.symm
    · intro h'
      exact absurd (Finset.mem_range.2 (x q).isLt) h'
  · rw [if_neg hx, Finset.sum_eq_zero]
    intro b _
    rw [Pi.smul_apply, smul_eq_mul]
    unfold dl
    rw [if_neg, mul_zero]
    intro k
    apply hx
    intro i hi
    have := k i
    rw [Function.update_of_ne hi] at this
    exact Fin.ext this

/-- what the gates of `spread` do, in their order -/
noncomputable def total (d : Fin n → Nat) (L : Nat → Fin n) (k : Nat) (cH : Matrix (Reg d) (Reg d) ℂ) (v : Reg d → ℂ) : Reg d → ℂ :=
  steps d L (others k) ((shiftOp d (L 1) (L 0) fun v => if v = 0 then 1 else 0).mulVec
    (((shiftOp d (L 1) (L 0) fun _ => 1)ᴴ).mulVec (cH.mulVec v)))

theorem mem_others {k j : Nat} : j ∈ others k ↔ 2 ≤ j ∧ j < k := by
  unfold others
  rw [List.mem_map]
  constructor
  · rintro ⟨a, ha, rfl⟩
    have := List.mem_range.1 ha
    omega
  · rintro ⟨h1, h2⟩
    exact ⟨j - 2, List.mem_range.2 (by omega), by omega⟩

theorem nodup_others (k : Nat) : (others k).Nodup := (List.nodup_range (n := k - 2)).map fun a b h => by simpa using h

theorem upd_lt {f : Fin n → Nat} (hf : ∀ i, f i < d i) (q : Fin n) (v : Nat) (hv : v < d q) : ∀ i, Function.update f q v i < d i := by
  intro i
  by_cases hi : i = q
  · subst hi; rwa [Function.update_self]
  · rw [Function.update_of_ne hi]; exact hf i

/-- minus one, then plus one when line 1 of the list is at level 0 -/
theorem minus_plus (L : Nat → Fin n) (h10 : L 1 ≠ L 0) (f : Fin n → Nat) (hf : ∀ i, f i < d i) (v : Nat) (hv : v < d (L 0))
    (h : (v + 1) % d (L 0) = f (L 0)) :
    (shiftOp d (L 1) (L 0) fun v => if v = 0 then 1 else 0).mulVec (((shiftOp d (L 1) (L 0) fun _ => 1)ᴴ).mulVec (dl d f)) =
      if f (L 1) = 0 then dl d f else dl d (Function.update f (L 0) v) := by
  rw [shiftAdj_dl _ _ h10 _ f hf v hv h, shift_dl _ _ _ _ (upd_lt hf _ v hv), Function.update_self, Function.update_of_ne h10,
    Function.update_idem]
  by_cases h1 : f (L 1) = 0
  · rw [if_pos h1, if_pos h1, h, Function.update_eq_self]
  · rw [if_neg h1, if_neg h1, Nat.add_zero, Nat.mod_eq_of_lt hv]

theorem total_ground (L : Nat → Fin n) (k : Nat) (hk : 2 ≤ k) (hL : ∀ i j, i < k → j < k → L i = L j → i = j) (cH : Matrix (Reg d) (Reg d) ℂ)
    (hcH : EvenOn d (L 0) (L 1) cH) (f : Fin n → Nat) (hf : ∀ i, f i < d i) (h0 : ∀ j < k, f (L j) = 0) :
    total d L k cH (dl d f) = dl d f := by
  have h10 : L 1 ≠ L 0 := fun h => absurd (hL 1 0 (by omega) (by omega) h) (by omega)
  unfold total
  have hp : 0 < d (L 0) := by have := hf (L 0); omega
  rw [even_other _ _ _ hcH f hf (by rw [h0 0 (by omega)]; omega),
    minus_plus L h10 f hf (d (L 0) - 1) (by omega) (by rw [h0 0 (by omega), Nat.sub_add_cancel hp, Nat.mod_self]), if_pos (h0 1 (by omega))]
  refine steps_keep L _ f hf fun j hj => ?_
  have := mem_others.1 hj
  refine ⟨fun h => ?_, h0 j this.2, by rw [h0 1 (by omega)]; omega⟩
  have := hL j 1 (by omega) (by omega) h
  omega

/-- the levels with the excitation moved from line 0 to line `a` of the list -/
def moved (L : Nat → Fin n) (f : Fin n → Nat) (a : Nat) : Fin n → Nat := Function.update (Function.update f (L 0) 0) (L a) 1

theorem total_excited (L : Nat → Fin n) (k : Nat) (hk : 2 ≤ k) (hL : ∀ i j, i < k → j < k → L i = L j → i = j)
    (hd : ∀ j < k, j ≠ 0 → d (L j) = k) (cH : Matrix (Reg d) (Reg d) ℂ)
    (hcH : EvenOn d (L 0) (L 1) cH) (f : Fin n → Nat) (hf : ∀ i, f i < d i) (h0 : ∀ j < k, f (L j) = if j = 0 then 1 else 0) :
    total d L k cH (dl d f) = ∑ a ∈ Finset.range k, ((1 / Real.sqrt k : ℝ) : ℂ) • dl d (moved L f a) := by
  have hne : ∀ i j, i < k → j < k → i ≠ j → L i ≠ L j := fun i j hi hj hij h => hij (hL i j hi hj h)
  have h10 : L 1 ≠ L 0 := hne 1 0 (by omega) (by omega) (by omega)
  have hd1 : d (L 1) = k := hd 1 (by omega) (by omega)
  have hf0 : f (L 0) = 1 := h0 0 (by omega)
  have hf1 : f (L 1) = 0 := h0 1 (by omega)
  have hlt0 : 1 < d (L 0) := hf0 ▸ hf (L 0)
  unfold total
  rw [even_own _ _ _ hcH f hf hf0 hf1, hd1, Matrix.mulVec_sum, Matrix.mulVec_sum, steps_sum]
  refine Finset.sum_congr rfl fun a ha => ?_
  have hak : a < k := Finset.mem_range.1 ha
  have hfa := upd_lt hf (L 1) a (by omega)
  rw [Matrix.mulVec_smul, Matrix.mulVec_smul, steps_smul,
    minus_plus L h10 _ hfa 0 (by omega) (by rw [Function.update_of_ne (Ne.symm h10), hf0]; exact Nat.mod_eq_of_lt hlt0), Function.update_self]
  congr 1
  by_cases ha0 : a = 0
  · subst ha0
    have e : Function.update f (L 1) 0 = f := Function.update_eq_self_iff.2 hf1.symm
    rw [if_pos rfl, e]
    have : moved L f 0 = f := by
      unfold moved
      rw [Function.update_idem, ← hf0, Function.update_eq_self]
    rw [this]
    refine steps_keep L _ f hf fun j hj => ?_
    have := mem_others.1 hj
    exact ⟨hne j 1 this.2 (by omega) (by omega), by rw [h0 j this.2, if_neg (by omega)], by rw [hf1]; omega⟩
  · rw [if_neg ha0]
    have hfz := upd_lt hfa (L 0) 0 (by omega)
    have hL1 : Function.update (Function.update f (L 1) a) (L 0) 0 (L 1) = a := by rw [Function.update_of_ne h10, Function.update_self]
    have hoth : ∀ j ∈ others k, Function.update (Function.update f (L 1) a) (L 0) 0 (L j) = 0 := by
      intro j hj
      have := mem_others.1 hj
      rw [Function.update_of_ne (hne j 0 this.2 (by omega) (by omega)), Function.update_of_ne (hne j 1 this.2 (by omega) (by omega)),
        h0 j this.2, if_neg (by omega)]
    by_cases ha1 : a = 1
    · subst ha1
      rw [steps_keep L _ _ hfz fun j hj => ?_]
      · unfold moved
        rw [Function.update_comm (Ne.symm h10)]
      · have := mem_others.1 hj
        exact ⟨hne j 1 this.2 (by omega) (by omega), hoth j hj, by rw [hL1]; omega⟩
    · rw [steps_move L a (by rw [hd a hak ha0]; exact hk) _ _ hfz (nodup_others k) (mem_others.2 ⟨by omega, hak⟩) (fun j hj => ?_) hL1]
      · congr 1
        unfold moved
        have n1 := hne a 1 hak (by omega) ha1
        have n0 := hne a 0 hak (by omega) ha0
        funext i
        by_cases i1 : i = L 1
        · subst i1
          rw [Function.update_self, Function.update_of_ne (Ne.symm n1), Function.update_of_ne h10, hf1]
        · rw [Function.update_of_ne i1]
          by_cases ia : i = L a
          · subst ia; rw [Function.update_self, Function.update_self]
          · rw [Function.update_of_ne ia, Function.update_of_ne ia]
            by_cases i0 : i = L 0
            · subst i0; rw [Function.update_self, Function.update_self]
            · rw [Function.update_of_ne i0, Function.update_of_ne i0, Function.update_of_ne i1]
      · have := mem_others.1 hj
        exact ⟨hne j 1 this.2 (by omega) (by omega), hoth j hj, by omega, fun h => hne j a this.2 hak h⟩

theorem total_sum (L : Nat → Fin n) (k : Nat) (cH : Matrix (Reg d) (Reg d) ℂ) {ι : Type} (s : Finset ι) (a : ι → ℂ) (v : ι → Reg d → ℂ) :
    total d L k cH (∑ i ∈ s, a i • v i) = ∑ i ∈ s, a i • total d L k cH (v i) := by
  unfold total
  rw [Matrix.mulVec_sum, Matrix.mulVec_sum, Matrix.mulVec_sum, steps_sum]
  refine Finset.sum_congr rfl fun i _ => ?_
  rw [Matrix.mulVec_smul, Matrix.mulVec_smul, Matrix.mulVec_smul, steps_smul]

theorem as_sum (ψ : Reg d → ℂ) : ψ = ∑ y : Reg d, ψ y • dl d fun i => (y i : Nat) := by
  funext x
  rw [Finset.sum_apply, Finset.sum_eq_single x]
  · rw [Pi.smul_apply, smul_eq_mul]
    unfold dl
    rw [if_pos (fun _ => rfl), mul_one]
  · intro y _ hy
    rw [Pi.smul_apply, smul_eq_mul]
    unfold dl
    rw [if_neg (fun h => hy (funext fun i => Fin.ext (h i).symm)), mul_zero]
  · intro h; exact absurd (Finset.mem_univ _) h

/-! ### the diagrams -/

theorem xDag_ok (r : Nat) (hr : r = 2 ∨ r = 3 ∨ r = 5) : ∃ l, xDagTable r = some l ∧ l.length = r * r ∧
    ∀ i < r, ∀ j < r, l.getD (r * i + j) 0 = if j = (i + 1) % r then 1 else 0 := by
  rcases hr with rfl | rfl | rfl
  · exact ⟨_, rfl, rfl, by decide⟩
  · exact ⟨_, rfl, rfl, by decide⟩
  · exact ⟨_, rfl, rfl, by decide⟩

theorem xMat_entries {r : Nat} (h2 : 2 ≤ r) (h7 : r ≤ 7) : ∃ m, xMat r = some m ∧ m.length = r * r ∧
    ∀ i j, i < r → j < r → m.getD (r * i + j) 0 = if i = (j + 1) % r then 1 else 0 := by
  obtain ⟨m, A, hm, hA, hlen, _, _, hent⟩ := xMat_ok h2 h7
  obtain ⟨A', hA', _, _, hx⟩ := xArray_ok r
  obtain rfl : A = A' := Except.ok.inj (hA.symm.trans hA')
  exact ⟨m, hm, hlen, fun i j hi hj => by rw [hent i j hi hj, hx i j hj]⟩

theorem minusPlus_ok (hpos : ∀ i, 0 < d i) (l0 l1 : Fin n) (h10 : l1 ≠ l0) (hr : d l0 = 2 ∨ d l0 = 3 ∨ d l0 = 5) :
    ∃ a b, minusPlus (regs d) l0 l1 = .ok (a, b) ∧ Proper .mat (regs d) a ∧ Proper .mat (regs d) b ∧
      matOf d a = (shiftOp d l1 l0 fun _ => 1)ᴴ ∧ matOf d b = shiftOp d l1 l0 fun v => if v = 0 then 1 else 0 := by
  obtain ⟨l, hl, hlen, hent⟩ := xDag_ok (d l0) hr
  obtain ⟨m, hm, hmlen, hment⟩ := xMat_entries (r := d l0) (by omega) (by omega)
  obtain ⟨a, ha1, ha2, _, ha4⟩ := C17_makeGateDD (d := d) l0 (l.map fun k : Nat => (k : ℂ)) (by rw [List.length_map, hlen]) []
    (fun i => ⟨0, hpos i⟩) List.Pairwise.nil (by simp)
  obtain ⟨b, hb1, hb2, hb3⟩ := ctlShift_ok hpos l1 l0 h10 ⟨0, hpos l1⟩ m hmlen hment
  refine ⟨a, b, ?_, ha2, hb2, ?_, hb3⟩
  · unfold minusPlus
    rw [reverse_get]
    dsimp only
    rw [hl, hm]
    dsimp only
    rw [show makeGateDD (regs d) (l.map fun k : Nat => (k : ℂ)) [] (l0 : Nat) = .ok a from ha1,
      show makeGateDD (regs d) m [((l1 : Nat), 0)] (l0 : Nat) = .ok b from hb1]
    rfl
  · rw [ha4, controlled_nil]
    funext x y
    rw [Matrix.conjTranspose_apply]
    unfold embed1 shiftOp
    by_cases h : ∀ i, i ≠ l0 → x i = y i
    · rw [if_pos h]
      dsimp only
      rw [getD_map _ 0 _ _ (by rw [hlen]; exact flat_lt (x l0).isLt (y l0).isLt), hent _ (x l0).isLt _ (y l0).isLt]
      by_cases h' : (y l0 : Nat) = (x l0 + 1) % d l0
      · rw [if_pos h', if_pos ⟨fun i hi => (h i hi).symm, h'⟩]; simp
      · rw [if_neg h', if_neg (fun k => h' k.2)]; simp
    · rw [if_neg h, if_neg (fun k => h fun i hi => (k.1 i hi).symm), star_zero]

theorem minusPlus_none (l0 l1 : Fin n) (hr : d l0 ≠ 2 ∧ d l0 ≠ 3 ∧ d l0 ≠ 5) : minusPlus (regs d) l0 l1 = .ok (none, none) := by
  unfold minusPlus
  rw [reverse_get]
  dsimp only
  have : xDagTable (d l0) = none := by
    unfold xDagTable
    split <;> first | rfl | omega
  rw [this]

theorem even_ok (hpos : ∀ i, 0 < d i) (c q : Fin n) (hcq : c ≠ q) (h1 : 2 ≤ d c) (h2 : 2 ≤ d q) (h7 : d q ≤ 7) :
    ∃ e, makeGateDD (regs d) ((hMat (d q)).getD []) [((c : Nat), 1)] q = .ok e ∧ Proper .mat (regs d) e ∧ EvenOn d c q (matOf d e) := by
  obtain ⟨m, A, hm, hA, hlen, _, _, hent⟩ := hMat_ok h2 h7
  obtain ⟨A', hA', _, _, hx⟩ := hArray_ok (d q)
  obtain rfl : A = A' := Except.ok.inj (hA.symm.trans hA')
  obtain ⟨e, e1, e2, _, e4⟩ := ctlGate_ok hpos c q hcq ⟨1, h1⟩ m (le_of_eq hlen.symm)
  refine ⟨e, by rw [hm]; exact e1, e2, fun x y => ?_⟩
  rw [e4]
  refine if_congr ⟨fun h => by rw [h], fun h => Fin.ext h⟩ ?_ rfl
  rw [hent _ _ (x q).isLt (y q).isLt, hx _ _ (x q).isLt (y q).isLt]

theorem applyTimes_ok (gate : Edge (regs d)) (hg : Proper .mat (regs d) gate) : ∀ (k : Nat) (s : Edge (regs d)) (t : Tables), Reachable H t →
    Proper .vec (regs d) s → ∃ r t', applyTimes H (regs d) gate k s t = .ok (r, t') ∧ Reachable H t' ∧ Proper .vec (regs d) r ∧
      vecOf d r = ((matOf d gate) ^ k).mulVec (vecOf d s)
  | 0, s, t, ht, hs => ⟨s, t, rfl, ht, hs, by rw [pow_zero, Matrix.one_mulVec]⟩
  | k + 1, s, t, ht, hs => by
    obtain ⟨r, t', h1, h2, h3, h4⟩ := C16_multiply_vector ht gate s hg hs
    obtain ⟨r', t'', e1, e2, e3, e4⟩ := applyTimes_ok gate hg k r t' h2 h3
    refine ⟨r', t'', ?_, e2, e3, by rw [e4, h4, Matrix.mulVec_mulVec, ← pow_succ]⟩
    unfold applyTimes
    rw [bind_run h1]
    exact e1

/-- the gates for the further lines -/
theorem gates_ok (F : Nat → M (Edge (regs d))) (P : Nat → Edge (regs d) → Prop) : ∀ (js : List Nat) (t : Tables), Reachable H t →
    (∀ j ∈ js, ∀ t, Reachable H t → ∃ e t', F j t = .ok (e, t') ∧ Reachable H t' ∧ P j e) →
    ∃ es t', js.mapM F t = .ok (es, t') ∧ Reachable H t' ∧ List.Forall₂ P js es
  | [], t, ht, _ => ⟨[], t, rfl, ht, .nil⟩
  | j :: js, t, ht, h => by
    obtain ⟨e, t1, h1, h2, h3⟩ := h j (List.mem_cons_self ..) t ht
    obtain ⟨es, t2, e1, e2, e3⟩ := gates_ok F P js t1 h2 fun j' hj' => h j' (List.mem_cons_of_mem _ hj')
    refine ⟨e :: es, t2, ?_, e2, .cons h3 e3⟩
    rw [List.mapM_cons, bind_run h1, bind_run e1]
    rfl

theorem fold_ok (L : Nat → Fin n) : ∀ (js : List Nat) (xps sums : List (Edge (regs d))) (s : Edge (regs d)) (t : Tables), Reachable H t →
    Proper .vec (regs d) s →
    List.Forall₂ (fun j e => Proper .mat (regs d) e ∧ matOf d e = shiftOp d (L 1) (L j) fun v => if v = j then 1 else 0) js xps →
    List.Forall₂ (fun j e => Proper .mat (regs d) e ∧ matOf d e = (shiftOp d (L j) (L 1) id)ᴴ) js sums →
    ∃ r t', ((js.zip (xps.zip sums)).foldlM (fun s p => do
      let s ← multiply H .vec (regs d) p.2.1 s
      applyTimes H (regs d) p.2.2 p.1 s) s : M (Edge (regs d))) t = .ok (r, t') ∧ Reachable H t' ∧ Proper .vec (regs d) r ∧
      vecOf d r = steps d L js (vecOf d s)
  | _, _, _, s, t, ht, hs, .nil, .nil => ⟨s, t, rfl, ht, hs, rfl⟩
  | _, _, _, s, t, ht, hs, .cons (a := j) (l₁ := js) (b := xp) (l₂ := xps) ⟨hx1, hx2⟩ hx, .cons (b := sm) (l₂ := sums) ⟨hs1, hs2⟩ hsm => by
    obtain ⟨r1, t1, a1, a2, a3, a4⟩ := C16_multiply_vector ht xp s hx1 hs
    obtain ⟨r2, t2, b1, b2, b3, b4⟩ := applyTimes_ok sm hs1 j r1 t1 a2 a3
    obtain ⟨r, t', c1, c2, c3, c4⟩ := fold_ok L js xps sums r2 t2 b2 b3 hx hsm
    refine ⟨r, t', ?_, c2, c3, ?_⟩
    · rw [List.zip_cons_cons, List.zip_cons_cons, List.foldlM_cons]
      have hstep : (do
        let s ← multiply H .vec (regs d) xp s
        applyTimes H (regs d) sm j s : M (Edge (regs d))) t = .ok (r2, t2) := by
        rw [bind_run a1]; exact b1
      rw [bind_run hstep]
      exact c1
    · rw [c4, b4, a4, hs2, hx2, Matrix.mulVec_mulVec]
      rfl

/-- the gates of `spread` are made, and applied in their order -/
theorem spread_run (hpos : ∀ i, 0 < d i) (L : Nat → Fin n) (k : Nat) (h2 : 2 ≤ k) (h7 : k ≤ 7)
    (hL : ∀ i j, i < k → j < k → L i = L j → i = j) (hd : ∀ j < k, j ≠ 0 → d (L j) = k) (h0 : 2 ≤ d (L 0)) (lines : List Nat)
    (hl : ∀ j < k, lines[j]? = some (L j : Nat)) (a b : Edge (regs d)) (hab : minusPlus (regs d) (L 0) (L 1) = .ok (a, b))
    (ha : Proper .mat (regs d) a) (hb : Proper .mat (regs d) b) (e : Edge (regs d)) (he : Proper .vec (regs d) e) (t : Tables)
    (ht : Reachable H t) :
    ∃ r t' cH, spread H k (regs d) lines e t = .ok (r, t') ∧ Reachable H t' ∧ Proper .vec (regs d) r ∧ EvenOn d (L 0) (L 1) cH ∧
      vecOf d r = steps d L (others k) ((matOf d b).mulVec ((matOf d a).mulVec (cH.mulVec (vecOf d e)))) := by
  have hat : ∀ j < k, lineAt lines j = .ok (L j : Nat) := by
    intro j hj
    unfold lineAt
    rw [hl j hj]
  have hne : ∀ i j, i < k → j < k → i ≠ j → L i ≠ L j := fun i j hi hj hij h => hij (hL i j hi hj h)
  have hd1 : d (L 1) = k := hd 1 (by omega) (by omega)
  obtain ⟨cH, c1, c2, c3⟩ := even_ok hpos (L 0) (L 1) (hne 0 1 (by omega) (by omega) (by omega)) h0 (by omega) (by omega)
  rw [hd1] at c1
  obtain ⟨m, hm, hmlen, hment⟩ := xMat_entries h2 h7
  obtain ⟨xps, t1, x1, x2, x3⟩ := gates_ok (H := H) (d := d)
    (fun j => do
      let l ← lift (lineAt lines j)
      lift (makeGateDD (regs d) ((xMat k).getD []) [((L 1 : Nat), j)] l))
    (fun j e => Proper .mat (regs d) e ∧ matOf d e = shiftOp d (L 1) (L j) fun v => if v = j then 1 else 0) (others k) t ht
    (by
      intro j hj t ht
      have hj' := mem_others.1 hj
      have hdj : d (L j) = k := hd j hj'.2 (by omega)
      obtain ⟨g, g1, g2, g3⟩ := ctlShift_ok hpos (L 1) (L j) (hne 1 j (by omega) hj'.2 (by omega)) ⟨j, by omega⟩ m (by rw [hmlen, hdj])
        (by rw [hdj]; exact hment)
      refine ⟨g, t, ?_, ht, g2, g3⟩
      rw [hat j hj'.2, bind_run (lift_ok _ t), hm]
      rw [show makeGateDD (regs d) ((some m).getD []) [((L 1 : Nat), j)] (L j : Nat) = .ok g from g1]
      rfl)
  obtain ⟨sums, t2, s1, s2, s3⟩ := gates_ok (H := H) (d := d)
    (fun j => do
      let l ← lift (lineAt lines j)
      csum H (regs d) l (L 1 : Nat) true)
    (fun j e => Proper .mat (regs d) e ∧ matOf d e = (shiftOp d (L j) (L 1) id)ᴴ) (others k) t1 x2
    (by
      intro j hj t ht
      have hj' := mem_others.1 hj
      obtain ⟨g, t', g1, g2, g3, g4⟩ := csum_ok hpos (L j) (L 1) (hne j 1 hj'.2 (by omega) (by omega)) (by omega) (by omega) true t ht
      refine ⟨g, t', ?_, g2, g3, g4⟩
      rw [hat j hj'.2, bind_run (lift_ok _ t)]
      exact g1)
  obtain ⟨r1, t3, u1, u2, u3, u4⟩ := C16_multiply_vector s2 cH e c2 he
  obtain ⟨r2, t4, v1, v2, v3, v4⟩ := C16_multiply_vector u2 a r1 ha u3
  obtain ⟨r3, t5, w1, w2, w3, w4⟩ := C16_multiply_vector v2 b r2 hb v3
  obtain ⟨r, t6, z1, z2, z3, z4⟩ := fold_ok L (others k) xps sums r3 t5 w2 w3 x3 s3
  refine ⟨r, t6, matOf d cH, ?_, z2, z3, c3, by rw [z4, w4, v4, u4]⟩
  unfold spread
  rw [hat 0 (by omega), hat 1 (by omega), bind_run (lift_ok _ t), bind_run (lift_ok _ t), c1, bind_run (lift_ok _ t), hab,
    bind_run (lift_ok _ t), bind_run x1, bind_run s1, bind_run u1, bind_run v1, bind_run w1]
  exact z1

/-- the list of lines as a function of the position -/
theorem list_fun {k : Nat} (ls : Fin k → Fin n) (hinj : Function.Injective ls) (hk : 0 < k) :
    ∃ L : Nat → Fin n, (∀ j (hj : j < k), L j = ls ⟨j, hj⟩) ∧ (∀ i j, i < k → j < k → L i = L j → i = j) ∧
      (∀ q, (∀ i, ls i ≠ q) ↔ ∀ j < k, L j ≠ q) ∧ ∀ j < k, (List.ofFn fun j => (ls j : Nat))[j]? = some (L j : Nat) := by
  refine ⟨fun j => if h : j < k then ls ⟨j, h⟩ else ls ⟨0, hk⟩, fun j hj => dif_pos hj, fun i j hi hj h => ?_, fun q => ⟨fun h j hj => ?_, fun h i => ?_⟩,
    fun j hj => ?_⟩
  · dsimp only at h
    rw [dif_pos hi, dif_pos hj] at h
    exact congrArg Fin.val (hinj h)
  · dsimp only
    rw [dif_pos hj]; exact h _
  · have := h i i.isLt
    dsimp only at this
    rwa [dif_pos i.isLt] at this
  · dsimp only
    rw [dif_pos hj, List.getElem?_ofFn, dif_pos hj]

theorem moved_iff {k : Nat} (ls : Fin k → Fin n) (first : Fin k) (hfirst : (first : Nat) = 0) (L : Nat → Fin n)
    (hLk : ∀ j (hj : j < k), L j = ls ⟨j, hj⟩) (hL : ∀ i j, i < k → j < k → L i = L j → i = j)
    (hout : ∀ q, (∀ i, ls i ≠ q) ↔ ∀ j < k, L j ≠ q) (z x : Reg d) (hz : Excited ls first z) (a : Nat) (ha : a < k) :
    (∀ i, (x i : Nat) = moved L (fun i => (z i : Nat)) a i) ↔ Excited ls ⟨a, ha⟩ x ∧ SameElsewhere ls x z := by
  have hin : ∀ i : Fin k, moved L (fun i => (z i : Nat)) a (ls i) = if i = ⟨a, ha⟩ then 1 else 0 := by
    intro i
    have hi : ls i = L i := (hLk i i.isLt).symm
    unfold moved
    by_cases h : i = ⟨a, ha⟩
    · rw [if_pos h, hi]
      have : (i : Nat) = a := congrArg Fin.val h
      rw [this, Function.update_self]
    · rw [if_neg h, hi, Function.update_of_ne (fun k => h (Fin.ext (hL _ _ i.isLt ha k)))]
      by_cases h' : (i : Nat) = 0
      · rw [h', Function.update_self]
      · rw [Function.update_of_ne (fun k => h' (hL _ _ i.isLt (by omega) k)), ← hi, hz i, if_neg (fun k => h' (by rw [k, hfirst]))]
  have hoff : ∀ q, (∀ i, ls i ≠ q) → moved L (fun i => (z i : Nat)) a q = z q := by
    intro q hq
    have := (hout q).1 hq
    unfold moved
    rw [Function.update_of_ne (Ne.symm (this a ha)), Function.update_of_ne (Ne.symm (this 0 (by omega)))]
  constructor
  · intro h
    refine ⟨fun i => by rw [h, hin], fun q hq => Fin.ext ?_⟩
    rw [h, hoff q hq]
  · rintro ⟨h1, h2⟩ q
    by_cases hq : ∀ i, ls i ≠ q
    · rw [hoff q hq, h2 q hq]
    · simp only [ne_eq, not_forall, not_not] at hq
      obtain ⟨i, rfl⟩ := hq
      rw [h1 i, hin i]

theorem spread_total {k : Nat} (ls : Fin k → Fin n) (first : Fin k) (hfirst : (first : Nat) = 0) (L : Nat → Fin n)
    (hLk : ∀ j (hj : j < k), L j = ls ⟨j, hj⟩) (hk : 2 ≤ k) (hL : ∀ i j, i < k → j < k → L i = L j → i = j)
    (hout : ∀ q, (∀ i, ls i ≠ q) ↔ ∀ j < k, L j ≠ q) (hd : ∀ j < k, j ≠ 0 → d (L j) = k) (cH : Matrix (Reg d) (Reg d) ℂ)
    (hcH : EvenOn d (L 0) (L 1) cH) (ψ : Reg d → ℂ) (hsupp : ∀ x, ψ x ≠ 0 → Ground ls x ∨ Excited ls first x) :
    SpreadOf ls first ψ (total d L k cH ψ) := by
  have hval : ∀ x, total d L k cH ψ x = ∑ y : Reg d, ψ y * total d L k cH (dl d fun i => (y i : Nat)) x := by
    intro x
    conv_lhs => rw [as_sum ψ, total_sum, Finset.sum_apply]
    rfl
  have hground : ∀ y x : Reg d, Ground ls y → total d L k cH (dl d fun i => (y i : Nat)) x = if x = y then 1 else 0 := by
    intro y x hy
    rw [total_ground L k hk hL cH hcH _ (fun i => (y i).isLt) fun j hj => by rw [hLk j hj]; exact hy _]
    unfold dl
    exact if_congr ⟨fun h => funext fun i => Fin.ext (h i), fun h i => by rw [h]⟩ rfl rfl
  have hexc : ∀ y x : Reg d, Excited ls first y → total d L k cH (dl d fun i => (y i : Nat)) x =
      ∑ a : Fin k, if Excited ls a x ∧ SameElsewhere ls x y then ((1 / Real.sqrt k : ℝ) : ℂ) else 0 := by
    intro y x hy
    rw [total_excited L k hk hL hd cH hcH _ (fun i => (y i).isLt) fun j hj => ?_, Finset.sum_apply, Finset.sum_range]
    · refine Finset.sum_congr rfl fun a _ => ?_
      rw [Pi.smul_apply, smul_eq_mul]
      unfold dl
      rw [if_congr (moved_iff ls first hfirst L hLk hL hout y x hy a a.isLt) rfl rfl, mul_ite, mul_one, mul_zero]
    · rw [hLk j hj]
      refine (hy _).trans (if_congr ⟨fun h => ?_, fun h => Fin.ext ?_⟩ rfl rfl)
      · rw [← hfirst, ← h]
      · rw [hfirst]; exact h
  have one : ∀ (a b : Fin k) (x : Reg d), Excited ls a x → Excited ls b x → a = b := by
    intro a b x ha hb
    have h1 := ha a
    rw [if_pos rfl, hb a] at h1
    by_contra h
    rw [if_neg h] at h1
    omega
  refine ⟨fun x hx => ?_, fun j x y hx hy hxy => ?_, fun x hx hx' => ?_⟩
  · rw [hval, Finset.sum_eq_single x]
    · rw [hground x x hx, if_pos rfl, mul_one]
    · intro y _ hy
      by_cases h0 : ψ y = 0
      · rw [h0, zero_mul]
      rcases hsupp y h0 with h | h
      · rw [hground y x h, if_neg (Ne.symm hy), mul_zero]
      · rw [hexc y x h, Finset.sum_eq_zero, mul_zero]
        intro a _
        rw [if_neg]
        rintro ⟨k1, _⟩
        have := k1 a
        rw [if_pos rfl, hx a] at this
        omega
    · intro h; exact absurd (Finset.mem_univ _) h
  · rw [hval, Finset.sum_eq_single y]
    · rw [hexc y x hy, Finset.sum_eq_single j, if_pos ⟨hx, hxy⟩, mul_comm]
      · intro a _ ha
        rw [if_neg (fun k => ha (one a j x k.1 hx))]
      · intro h; exact absurd (Finset.mem_univ _) h
    · intro z _ hz
      by_cases h0 : ψ z = 0
      · rw [h0, zero_mul]
      rcases hsupp z h0 with h | h
      · rw [hground z x h, if_neg, mul_zero]
        rintro rfl
        have := hx j
        rw [if_pos rfl, h j] at this
        omega
      · rw [hexc z x h, Finset.sum_eq_zero, mul_zero]
        intro a _
        rw [if_neg]
        rintro ⟨_, k2⟩
        apply hz
        funext q
        by_cases hq : ∀ i, ls i ≠ q
        · rw [← k2 q hq, hxy q hq]
        · simp only [ne_eq, not_forall, not_not] at hq
          obtain ⟨i, rfl⟩ := hq
          exact Fin.ext (by rw [h i, hy i])
    · intro h; exact absurd (Finset.mem_univ _) h
  · rw [hval, Finset.sum_eq_zero]
    intro z _
    by_cases h0 : ψ z = 0
    · rw [h0, zero_mul]
    rcases hsupp z h0 with h | h
    · rw [hground z x h, if_neg, mul_zero]
      rintro rfl
      exact hx h
    · rw [hexc z x h, Finset.sum_eq_zero, mul_zero]
      intro a _
      rw [if_neg (fun k => hx' a k.1)]

/-! ### too few lines -/

theorem bind_ok {α β : Type} {x : M α} {f : α → M β} {t : Tables} {b : β} {t' : Tables} (h : (x >>= f) t = .ok (b, t')) :
    ∃ a t1, x t = .ok (a, t1) ∧ f a t1 = .ok (b, t') := by
  change (StateT.bind x f) t = _ at h
  unfold StateT.bind at h
  simp only [bind, Except.bind] at h
  cases hx : x t with
  | error e => rw [hx] at h; cases h
  | ok p => rw [hx] at h; exact ⟨p.1, p.2, rfl, h⟩

theorem mapM_ok {α β : Type} (F : α → M β) : ∀ (l : List α) (t : Tables) (bs : List β) (t' : Tables), l.mapM F t = .ok (bs, t') →
    ∀ a ∈ l, ∃ t1 b t2, F a t1 = .ok (b, t2)
  | a :: l, t, bs, t', h, a', ha' => by
    rw [List.mapM_cons] at h
    obtain ⟨b, t1, h1, h2⟩ := bind_ok h
    obtain ⟨bs', t2, h3, _⟩ := bind_ok h2
    rcases List.mem_cons.1 ha' with rfl | ha'
    · exact ⟨t, b, t1, h1⟩
    · exact mapM_ok F l t1 bs' t2 h3 a' ha'

theorem few_lines (k : Nat) (ds : List Nat) (lines : List Nat) (hk : lines.length < k) (e : Edge ds) (t : Tables) (r : Edge ds)
    (t' : Tables) (h : spread H k ds lines e t = .ok (r, t')) : False := by
  unfold spread at h
  have at_ok : ∀ (i : Nat) (t t1 : Tables) (l : Nat), lift (lineAt lines i) t = .ok (l, t1) → i < lines.length := by
    intro i t t1 l hl
    by_contra hc
    have : lineAt lines i = .error .outOfRange := by
      unfold lineAt
      rw [List.getElem?_eq_none (by omega)]
    rw [this] at hl
    cases hl
  obtain ⟨l0, t1, h1, h⟩ := bind_ok h
  obtain ⟨l1, t2, h2, h⟩ := bind_ok h
  obtain ⟨cH, t3, _, h⟩ := bind_ok h
  obtain ⟨g, t4, _, h⟩ := bind_ok h
  obtain ⟨xps, t5, h5, h⟩ := bind_ok h
  have hl := at_ok 1 _ _ _ h2
  obtain ⟨u1, b, u2, hu⟩ := mapM_ok _ _ _ _ _ h5 lines.length (mem_others.2 ⟨by omega, hk⟩)
  obtain ⟨l, u3, hu3, _⟩ := bind_ok hu
  exact absurd (at_ok _ _ _ _ hu3) (by omega)

end Qudits.DD
