import Verif.Lemmas.PhasePasses
import Verif.Spec.PhaseSpec
import Verif.Props.GateLawProps
import Mathlib.Analysis.Complex.Norm
namespace Qudits.PhasePass
open Spec Matrix Complex

/-! ### the removal as a recursion -/

/-- the instructions kept by one sweep -/
def keep (n : Nat) : List Int → List PInstr → List PInstr
  | _, [] => []
  | seen, g :: rest =>
    if seen.length = n then g :: rest
    else match g.target with
      | .many qs => g :: keep n (qs.foldl (fun s q => s.insert q) seen) rest
      | .one q =>
        if q ∉ seen ∧ PKind.isPhase g.kind then keep n seen rest
        else g :: keep n (seen.insert q) rest

theorem removalIndices_mem (n : Nat) (L : List (Nat × PInstr)) (seen : List Int) :
    ∀ i ∈ removalIndices n seen L, i ∈ L.map Prod.fst := by
  induction L generalizing seen with
  | nil => intro i hi; simp [removalIndices] at hi
  | cons ig rest ih =>
    obtain ⟨k, g⟩ := ig
    intro i hi
    unfold removalIndices at hi
    split_ifs at hi with h
    · simp at hi
    · split at hi
      · exact List.mem_cons_of_mem _ (ih _ i hi)
      · split_ifs at hi
        · rcases List.mem_cons.1 hi with h' | h'
          · rw [h']; simp
          · exact List.mem_cons_of_mem _ (ih _ i h')
        · exact List.mem_cons_of_mem _ (ih _ i hi)

theorem filter_keep (n : Nat) (L : List (Nat × PInstr)) (hL : (L.map Prod.fst).Nodup) (seen : List Int) :
    (L.filter fun ig => ig.1 ∉ removalIndices n seen L).map Prod.snd = keep n seen (L.map Prod.snd) := by
  induction L generalizing seen with
  | nil => rfl
  | cons ig rest ih =>
    obtain ⟨k, g⟩ := ig
    rw [List.map_cons, List.nodup_cons] at hL
    have hk : ∀ s, k ∉ removalIndices n s rest := fun s h => hL.1 (removalIndices_mem n rest s k h)
    rw [List.map_cons]
    unfold removalIndices keep
    dsimp only
    by_cases h : seen.length = n
    · simp [h]
    · simp only [if_neg h]
      cases ht : g.target with
      | many qs =>
        dsimp only
        rw [List.filter_cons_of_pos (by simpa using hk _), List.map_cons, ih hL.2]
      | one q =>
        dsimp only
        by_cases hp : q ∉ seen ∧ PKind.isPhase g.kind = true
        · simp only [if_pos hp]
          rw [List.filter_cons_of_neg (by simp), ← ih hL.2]
          congr 1
          apply List.filter_congr
          intro x hx
          have : x.1 ≠ k := fun e => hL.1 (by
            have := List.mem_map_of_mem (f := Prod.fst) hx
            rwa [e] at this)
          simp [this]
        · simp only [if_neg hp]
          rw [List.filter_cons_of_pos (by simpa using hk _), List.map_cons, ih hL.2]

theorem enum_fst {γ : Type} (k : Nat) (l : List γ) : (enum k l).map Prod.fst = List.range' k l.length := by
  induction l generalizing k with
  | nil => rfl
  | cons g l ih => simp [enum, ih, List.range'_succ]

theorem enum_snd {γ : Type} (k : Nat) (l : List γ) : (enum k l).map Prod.snd = l := by
  induction l generalizing k with
  | nil => rfl
  | cons g l ih => simp [enum, ih]

theorem removeRz_forward (n : Nat) (l : List PInstr) : removeRz n l false = keep n [] l := by
  unfold removeRz
  dsimp only
  rw [if_neg (by simp), filter_keep n _ (by rw [enum_fst]; exact List.nodup_range'), enum_snd]

theorem removeRz_backward (n : Nat) (l : List PInstr) : removeRz n l true = (keep n [] l.reverse).reverse := by
  unfold removeRz
  dsimp only
  rw [if_pos rfl]
  have h := filter_keep n (enum 0 l).reverse (by rw [List.map_reverse, enum_fst, List.nodup_reverse]; exact List.nodup_range') []
  rw [List.map_reverse, enum_snd] at h
  rw [← h, ← List.map_reverse, ← List.filter_reverse, List.reverse_reverse]

theorem mem_keep {n : Nat} {seen : List Int} {l : List PInstr} {g : PInstr} (h : g ∈ keep n seen l) : g ∈ l := by
  induction l generalizing seen with
  | nil => exact h
  | cons a l ih =>
    unfold keep at h
    split_ifs at h
    · exact h
    · split at h
      · rcases List.mem_cons.1 h with h | h
        · rw [h]; simp
        · exact List.mem_cons_of_mem _ (ih h)
      · split_ifs at h
        · exact List.mem_cons_of_mem _ (ih h)
        · rcases List.mem_cons.1 h with h | h
          · rw [h]; simp
          · exact List.mem_cons_of_mem _ (ih h)

theorem mem_foldl_insert (qs seen : List Int) (x : Int) :
    x ∈ qs.foldl (fun s q => s.insert q) seen ↔ x ∈ qs ∨ x ∈ seen := by
  induction qs generalizing seen with
  | nil => simp
  | cons q qs ih =>
    rw [List.foldl_cons, ih, List.mem_insert_iff]
    simp only [List.mem_cons]
    tauto

/-! ### phase gates are diagonal -/

theorem norm_cexp_real (x : ℝ) : ‖cexp (I * x)‖ = 1 := by
  rw [mul_comm]; exact Complex.norm_exp_ofReal_mul_I x

theorem phase_diag {d : Nat} {g : PInstr} (hd : g.dim = d) (hp : PKind.isPhase g.kind = true) (hok : PhaseParams g) :
    ∃ (A : Arr2 ℂ) (D : Fin d → ℂ), arrayOf g = some (.ok A) ∧ A.toM d = diagonal D ∧ ∀ i, ‖D i‖ = 1 := by
  unfold PhaseParams at hok
  cases hk : g.kind with
  | r p => rw [hk] at hp; cases hp
  | other k => rw [hk] at hp; cases hp
  | virtRz p =>
    rw [hk] at hok
    dsimp only at hok
    rw [hd] at hok
    obtain ⟨A, hA, _, _, h3⟩ := virtRzArray_ok (d := d) p ⟨p.levA.toNat, by omega⟩ (by simp; omega)
    refine ⟨A, fun i => if (i : Nat) = p.levA.toNat then cexp (-I * p.phi) else 1, ?_, ?_, ?_⟩
    · unfold arrayOf; rw [hk, hd]; dsimp only; rw [hA]
    · ext r c
      rw [Arr2.toM, h3, diagonal_apply]
      simp only [Fin.ext_iff]
      by_cases hrc : (r : Nat) = c <;> simp [hrc]
    · intro i
      dsimp only
      split_ifs
      · rw [show -I * (p.phi : ℂ) = I * ((-p.phi : ℝ) : ℂ) by push_cast; ring]
        exact norm_cexp_real _
      · simp
  | rz p =>
    rw [hk] at hok
    dsimp only at hok
    rw [hd] at hok
    obtain ⟨a, b, h⟩ := goodLevels_of hok.1 hok.2.1 hok.2.2
    obtain ⟨A, hA, _, _, h3⟩ := rzArray_ok h
    rw [rz_two, twoLevel_diag a b (ne_of_lt h.lt)] at h3
    refine ⟨A, _, ?_, h3, ?_⟩
    · unfold arrayOf; rw [hk, hd]; dsimp only; rw [hA]
    · intro i
      split_ifs
      · rw [show -(I * ((p.phi / 2 : ℝ) : ℂ)) = I * ((-(p.phi / 2) : ℝ) : ℂ) by push_cast; ring]
        exact norm_cexp_real _
      · exact norm_cexp_real _
      · simp
  | z =>
    obtain ⟨A, hA, _, _, h3⟩ := zArray_ok d
    refine ⟨A, _, ?_, z_diag A h3, ?_⟩
    · unfold arrayOf; rw [hk, hd]; dsimp only; rw [hA]
    · intro i
      rw [norm_pow, norm_omg, one_pow]

/-! ### semantics of instructions on a register -/

variable {n : Nat} {d : Fin n → Nat} {sem : PInstr → Matrix (Reg d) (Reg d) ℂ}

/-- an instruction changes only its target lines -/
theorem GateSemantics.support (h : GateSemantics d sem) {g : PInstr}
    (hg : ∀ q, g.target = .one q → ∃ i : Fin n, q = (i : Nat)) (x y : Reg d) (hne : sem g x y ≠ 0) (p : Fin n)
    (hp : ((p : Nat) : Int) ∉ g.target.lines) : x p = y p := by
  cases ht : g.target with
  | one q =>
    obtain ⟨i, rfl⟩ := hg q ht
    rw [ht] at hp
    have hpi : p ≠ i := by
      intro e; apply hp; rw [e]; simp [Target.lines]
    obtain ⟨M, _, h2, h3⟩ := h.1 g i ht
    cases hc : g.controls with
    | none =>
      rw [h2 hc, embed1] at hne
      by_contra hx
      exact hne (if_neg fun hall => hx (hall p hpi))
    | some c =>
      obtain ⟨lev, _, e⟩ := h3 c hc
      rw [e, controlled] at hne
      split_ifs at hne with h4 h5
      · rw [embed1] at hne
        by_contra hx
        exact hne (if_neg fun hall => hx (hall p hpi))
      · rw [h5]
      · exact absurd rfl hne
  | many qs =>
    obtain ⟨m, e⟩ := h.2 g qs ht
    rw [ht] at hp
    rw [e, embed] at hne
    by_contra hx
    refine hne (if_neg fun hall => hx (hall p ?_))
    unfold lineSet
    rw [Finset.mem_filter]
    exact fun hh => hp hh.2

theorem embed1_diagonal (i : Fin n) (D : Fin (d i) → ℂ) :
    embed1 (X := LvOf d) i (diagonal D) = diagonal fun x : Reg d => D (x i) := by
  ext x y
  rw [embed1, diagonal_apply, diagonal_apply]
  by_cases h : x = y
  · subst h; simp
  · rw [if_neg h]
    by_cases h1 : ∀ j, j ≠ i → x j = y j
    · rw [if_pos h1, if_neg]
      intro e
      apply h
      funext j
      by_cases hj : j = i
      · subst hj; exact e
      · exact h1 j hj
    · rw [if_neg h1]

theorem GateSemantics.phase (h : GateSemantics d sem) {g : PInstr} {i : Fin n} (ht : g.target = .one (i : Nat))
    (hd : g.dim = d i) (hp : PKind.isPhase g.kind = true) (hok : PhaseParams g) (hc : g.controls = none) :
    ∃ D : Fin (d i) → ℂ, (∀ k, ‖D k‖ = 1) ∧ sem g = diagonal fun x : Reg d => D (x i) := by
  obtain ⟨A, D, hA, hD, hn⟩ := phase_diag hd hp hok
  obtain ⟨M, h1, h2, _⟩ := h.1 g i ht
  rw [h1 A hA] at h2
  cases hdag : g.dagger with
  | false =>
    refine ⟨D, hn, ?_⟩
    rw [h2 hc, hdag, if_neg (by simp), hD, embed1_diagonal]
  | true =>
    refine ⟨fun k => star (D k), ?_, ?_⟩
    · intro k; rw [norm_star]; exact hn k
    · rw [h2 hc, hdag, if_pos rfl, hD, diagonal_conjTranspose, embed1_diagonal]
      rfl

/-- a vector that is zero unless all lines outside `seen` are at level 0 -/
def ZeroOff (d : Fin n → Nat) (seen : List Int) (v : Reg d → ℂ) : Prop :=
  ∀ x, v x ≠ 0 → ∀ p : Fin n, ((p : Nat) : Int) ∉ seen → ((x p : Fin (d p)) : Nat) = 0

theorem keep_initial (h : GateSemantics d sem) (hpos : ∀ i, 0 < d i) (l : List PInstr)
    (hl : ∀ g ∈ l, OnRegister d g ∧ PhaseParams g ∧ (PKind.isPhase g.kind = true → g.controls = none))
    (m : Nat) (seen : List Int) (v : Reg d → ℂ) (hv : ZeroOff d seen v) :
    ∃ c : ℂ, ‖c‖ = 1 ∧ circuitOp sem l *ᵥ v = c • (circuitOp sem (keep m seen l) *ᵥ v) := by
  induction l generalizing seen v with
  | nil => exact ⟨1, by simp, by simp [keep]⟩
  | cons g l ih =>
    obtain ⟨hreg, hpar, hctrl⟩ := hl g (by simp)
    have ih' := ih (fun g' hg' => hl g' (List.mem_cons_of_mem _ hg'))
    have hkept : ∀ seen' : List Int, (∀ x, x ∈ g.target.lines → x ∈ seen') → (∀ x, x ∈ seen → x ∈ seen') →
        ∃ c : ℂ, ‖c‖ = 1 ∧ circuitOp sem (g :: l) *ᵥ v = c • (circuitOp sem (g :: keep m seen' l) *ᵥ v) := by
      intro seen' h1 h2
      obtain ⟨c, hc, e⟩ := ih' seen' (sem g *ᵥ v) (by
        intro x hx p hp
        have : ∃ y, sem g x y * v y ≠ 0 := by
          by_contra hcon
          push Not at hcon
          exact hx (Finset.sum_eq_zero fun y _ => hcon y)
        obtain ⟨y, hy⟩ := this
        have hxy := h.support (fun q hq => let ⟨i, hi, _⟩ := hreg q hq; ⟨i, hi⟩) x y (left_ne_zero_of_mul hy) p
          (fun hh => hp (h1 _ hh))
        rw [hxy]
        exact hv y (right_ne_zero_of_mul hy) p (fun hh => hp (h2 _ hh)))
      refine ⟨c, hc, ?_⟩
      rw [circuitOp_cons, circuitOp_cons, ← mulVec_mulVec, ← mulVec_mulVec, e]
    unfold keep
    split_ifs with hlen
    · exact ⟨1, by simp, by simp⟩
    · cases ht : g.target with
      | many qs =>
        dsimp only
        exact hkept _ (fun x hx => (mem_foldl_insert _ _ _).2 (Or.inl (by rw [ht] at hx; exact hx)))
          (fun x hx => (mem_foldl_insert _ _ _).2 (Or.inr hx))
      | one q =>
        dsimp only
        split_ifs with hp
        · obtain ⟨i, rfl, hdi⟩ := hreg q ht
          obtain ⟨D, hD, e⟩ := h.phase ht hdi hp.2 hpar (hctrl hp.2)
          obtain ⟨c, hc, e'⟩ := ih' seen v hv
          have hz : sem g *ᵥ v = D ⟨0, hpos i⟩ • v := by
            funext x
            rw [e, mulVec_diagonal, Pi.smul_apply, smul_eq_mul]
            by_cases hx : v x = 0
            · rw [hx]; simp
            · have : x i = ⟨0, hpos i⟩ := Fin.ext (hv x hx i hp.1)
              rw [this]
          refine ⟨D ⟨0, hpos i⟩ * c, by rw [norm_mul, hD, hc, one_mul], ?_⟩
          rw [circuitOp_cons, ← mulVec_mulVec, hz, mulVec_smul, e', smul_smul]
        · exact hkept _ (fun x hx => by
            rw [ht] at hx; simp [Target.lines] at hx; rw [hx]; exact List.mem_insert_self)
            (fun x hx => List.mem_insert_of_mem hx)

/-- a diagonal of unit numbers that depends only on the lines outside `seen` -/
def UnitOff (d : Fin n → Nat) (seen : List Int) (f : Reg d → ℂ) : Prop :=
  (∀ x, ‖f x‖ = 1) ∧ ∀ x y : Reg d, (∀ p : Fin n, ((p : Nat) : Int) ∉ seen → x p = y p) → f x = f y

theorem keep_trailing (h : GateSemantics d sem) (l : List PInstr)
    (hl : ∀ g ∈ l, OnRegister d g ∧ PhaseParams g ∧ (PKind.isPhase g.kind = true → g.controls = none))
    (m : Nat) (seen : List Int) :
    ∃ f, UnitOff d seen f ∧ (l.map sem).prod = diagonal f * ((keep m seen l).map sem).prod := by
  induction l generalizing seen with
  | nil => exact ⟨fun _ => 1, ⟨fun x => by simp, fun x y _ => rfl⟩, by simp [keep]⟩
  | cons g l ih =>
    obtain ⟨hreg, hpar, hctrl⟩ := hl g (by simp)
    have ih' := ih (fun g' hg' => hl g' (List.mem_cons_of_mem _ hg'))
    have hkept : ∀ seen' : List Int, (∀ x, x ∈ g.target.lines → x ∈ seen') → (∀ x, x ∈ seen → x ∈ seen') →
        ∃ f, UnitOff d seen f ∧ ((g :: l).map sem).prod = diagonal f * ((g :: keep m seen' l).map sem).prod := by
      intro seen' h1 h2
      obtain ⟨f, hf, e⟩ := ih' seen'
      refine ⟨f, ⟨hf.1, fun x y hxy => hf.2 x y fun p hp => hxy p (fun hh => hp (h2 _ hh))⟩, ?_⟩
      rw [List.map_cons, List.prod_cons, e, List.map_cons, List.prod_cons, ← mul_assoc, ← mul_assoc]
      congr 1
      ext x y
      rw [mul_diagonal, diagonal_mul]
      by_cases hne : sem g x y = 0
      · rw [hne]; simp
      · rw [mul_comm, hf.2 x y]
        intro p hp
        exact h.support (fun q hq => let ⟨i, hi, _⟩ := hreg q hq; ⟨i, hi⟩) x y hne p (fun hh => hp (h1 _ hh))
    unfold keep
    split_ifs with hlen
    · exact ⟨fun _ => 1, ⟨fun x => by simp, fun x y _ => rfl⟩, by simp⟩
    · cases ht : g.target with
      | many qs =>
        dsimp only
        exact hkept _ (fun x hx => (mem_foldl_insert _ _ _).2 (Or.inl (by rw [ht] at hx; exact hx)))
          (fun x hx => (mem_foldl_insert _ _ _).2 (Or.inr hx))
      | one q =>
        dsimp only
        split_ifs with hp
        · obtain ⟨i, rfl, hdi⟩ := hreg q ht
          obtain ⟨D, hD, e⟩ := h.phase ht hdi hp.2 hpar (hctrl hp.2)
          obtain ⟨f, hf, e'⟩ := ih' seen
          refine ⟨fun x => D (x i) * f x, ⟨fun x => by rw [norm_mul, hD, hf.1, one_mul], ?_⟩, ?_⟩
          · intro x y hxy
            dsimp only
            rw [hf.2 x y hxy, hxy i hp.1]
          · rw [List.map_cons, List.prod_cons, e', e, ← mul_assoc, diagonal_mul_diagonal]
        · exact hkept _ (fun x hx => by
            rw [ht] at hx; simp [Target.lines] at hx; rw [hx]; exact List.mem_insert_self)
            (fun x hx => List.mem_insert_of_mem hx)

end Qudits.PhasePass
