import Verif.Spec.PhaseSpec
import Verif.Lemmas.TwoLevelGates
import Verif.Lemmas.Trace
import Mathlib.Data.List.FinRange
namespace Qudits.PhasePass
open Spec Matrix Complex

variable {d : Nat}

/-- diagonal of phases -/
noncomputable def zdiag (f : Fin d → ℝ) : Matrix (Fin d) (Fin d) ℂ := diagonal fun i => cexp (-I * f i)

theorem cexp_shift {x y : ℝ} (h : ∃ k : ℤ, x = y + k * (2 * Real.pi)) : cexp (-I * x) = cexp (-I * y) := by
  obtain ⟨k, rfl⟩ := h
  rw [Complex.exp_eq_exp_iff_exists_int]
  exact ⟨-k, by push_cast; ring⟩

theorem zdiag_rot (f : Fin d → ℝ) {a b : Fin d} (hab : a ≠ b) (θ φ ψ : ℝ)
    (h : ∃ k : ℤ, ψ = φ - f a + f b + k * (2 * Real.pi)) :
    zdiag f * twoLevel a b (rot θ ψ) = twoLevel a b (rot θ φ) * zdiag f := by
  have e1 : cexp (-(I * ψ)) * cexp (-I * f a) = cexp (-(I * φ)) * cexp (-I * f b) := by
    have := cexp_shift h
    rw [show -(I * (ψ : ℂ)) = -I * ψ by ring, this, ← Complex.exp_add, ← Complex.exp_add]
    congr 1; push_cast; ring
  have e2 : cexp (I * ψ) * cexp (-I * f b) = cexp (I * φ) * cexp (-I * f a) := by
    have hh : cexp (I * ψ) = cexp (I * ((φ - f a + f b : ℝ) : ℂ)) := by
      obtain ⟨k, rfl⟩ := h
      rw [Complex.exp_eq_exp_iff_exists_int]
      exact ⟨k, by push_cast; ring⟩
    rw [hh, ← Complex.exp_add, ← Complex.exp_add]
    congr 1; push_cast; ring
  ext r c
  rw [zdiag, diagonal_mul, mul_diagonal]
  have hba := hab.symm
  by_cases ha : r = a
  · subst ha
    by_cases hc : c = r
    · subst hc; simp [twoLevel, rot, mul_comm]
    · by_cases hc' : c = b
      · subst hc'
        simp [twoLevel, rot, hc]
        simp only [neg_mul] at e1
        linear_combination (I * Complex.sin (θ / 2)) * e1
      · simp [twoLevel, hc, hc']
  · by_cases hb : r = b
    · subst hb
      by_cases hc : c = a
      · subst hc
        simp [twoLevel, rot, ha]
        simp only [neg_mul] at e2
        linear_combination (I * Complex.sin (θ / 2)) * e2
      · by_cases hc' : c = r
        · subst hc'; simp [twoLevel, rot, ha, mul_comm]
        · simp [twoLevel, hc, hc', ha]
    · simp only [twoLevel, if_neg ha, if_neg hb]
      by_cases hc : r = c
      · subst hc; simp
      · simp [hc]

theorem zdiag_virt (f : Fin d → ℝ) (a : Fin d) (x : ℝ) (φ : ℝ) (h : ∃ k : ℤ, x = f a + φ + k * (2 * Real.pi)) :
    (diagonal fun i => if i = a then cexp (-I * φ) else 1) * zdiag f = zdiag (Function.update f a x) := by
  rw [zdiag, zdiag, diagonal_mul_diagonal]
  congr 1
  funext i
  by_cases hi : i = a
  · subst hi
    rw [if_pos rfl, Function.update_self, cexp_shift h, ← Complex.exp_add]
    congr 1; push_cast; ring
  · rw [if_neg hi, Function.update_of_ne hi, one_mul]

theorem zdiag_zero : zdiag (fun _ : Fin d => 0) = 1 := by
  simp [zdiag]

/-- the dictionary of angles as a function -/
noncomputable def angleDict (L : List (Fin d)) (f : Fin d → ℝ) : PyDict Int ℝ := L.map fun i : Fin d => (((i : Nat) : Int), f i)

theorem get?_angleDict (L : List (Fin d)) (f : Fin d → ℝ) (a : Fin d) (ha : a ∈ L) :
    PyDict.get? (angleDict L f) ((a : Nat) : Int) = some (f a) := by
  induction L with
  | nil => simp at ha
  | cons b L ih =>
    change (if ((b : Nat) : Int) = ((a : Nat) : Int) then some (f b) else PyDict.get? (angleDict L f) _) = _
    by_cases h : b = a
    · subst h; rw [if_pos rfl]
    · rw [if_neg (fun e => h (Fin.ext (by exact_mod_cast e)))]
      rcases List.mem_cons.1 ha with h' | h'
      · exact absurd h'.symm h
      · exact ih h'

theorem set_angleDict (L : List (Fin d)) (hL : L.Nodup) (f : Fin d → ℝ) (a : Fin d) (ha : a ∈ L) (x : ℝ) :
    PyDict.set (angleDict L f) ((a : Nat) : Int) x = angleDict L (Function.update f a x) := by
  induction L with
  | nil => simp at ha
  | cons b L ih =>
    rw [List.nodup_cons] at hL
    change (if ((b : Nat) : Int) = ((a : Nat) : Int) then (((b : Nat) : Int), x) :: angleDict L f else
      (((b : Nat) : Int), f b) :: PyDict.set (angleDict L f) _ x) = (((b : Nat) : Int), Function.update f a x b) :: angleDict L _
    by_cases h : b = a
    · subst h
      rw [if_pos rfl, Function.update_self]
      congr 1
      apply List.map_congr_left
      intro i hi
      rw [Function.update_of_ne (fun e => hL.1 (by rw [← e]; exact hi))]
    · rw [if_neg (fun e => h (Fin.ext (by exact_mod_cast e))), Function.update_of_ne h]
      rcases List.mem_cons.1 ha with h' | h'
      · exact absurd h'.symm h
      · rw [ih hL.2 h']

theorem zeroAngles_eq (d : Nat) : zeroAngles d = angleDict (List.finRange d) (fun _ => 0) := by
  unfold zeroAngles angleDict
  conv_lhs => rw [← List.map_coe_finRange_eq_range]
  rw [List.map_map]
  rfl

theorem lineOp_r {g : PInstr} {p : TwoLevel} {a b : Fin d} (hd : g.dim = d) (hdag : g.dagger = false)
    (hk : g.kind = .r p) (h : GoodLevels d p a b) : lineOp d g = twoLevel a b (rot p.theta p.phi) := by
  obtain ⟨A, hA, _, _, h3⟩ := rArray_ok h
  unfold lineOp arrayOf
  rw [hk]
  dsimp only
  rw [hd, hA]
  dsimp only
  rw [hdag, if_neg (by simp), h3]

theorem lineOp_virt {g : PInstr} {p : TwoLevel} {a : Fin d} (hd : g.dim = d) (hdag : g.dagger = false)
    (hk : g.kind = .virtRz p) (h : p.levA = (a : Nat)) :
    lineOp d g = diagonal fun i => if i = a then cexp (-I * p.phi) else 1 := by
  obtain ⟨A, hA, _, _, h3⟩ := virtRzArray_ok p a h
  unfold lineOp arrayOf
  rw [hk]
  dsimp only
  rw [hd, hA]
  dsimp only
  rw [hdag, if_neg (by simp)]
  ext r c
  rw [Arr2.toM, h3, diagonal_apply]
  simp only [Fin.ext_iff]
  by_cases hrc : (r : Nat) = c
  · simp [hrc]
  · simp [hrc]

theorem newR_ok {p : TwoLevel} {a b : Fin d} (q : Int) (h : GoodLevels d p a b) (phi : ℝ) :
    ∃ g, newR q d p phi = .ok g ∧ g = ⟨.r ⟨p.levA, p.levB, regulateTheta p.theta, phi⟩, .one q, d, none, false⟩ := by
  have hlt := h.lt
  rw [Fin.lt_def] at hlt
  have hl : p.levA < p.levB := by rw [h.a_eq, h.b_eq]; omega
  refine ⟨_, ?_, rfl⟩
  unfold newR
  rw [rInit_explicit p.levA p.levB p.theta phi (by
    have := a.2; have := b.2
    rw [h.a_eq, h.b_eq]; omega), levelsSetter_sorted hl]
  rfl

theorem phaseGate_step {q : Int} (back : Bool) (f : Fin d → ℝ) (rs : List PInstr) (g : PInstr) (hg : PhaseGate d q g) :
    (∃ p a b, g.kind = .r p ∧ GoodLevels d p a b ∧ lineOp d g = twoLevel a b (rot p.theta p.phi) ∧
      ∃ g', propStep q d back (angleDict (List.finRange d) f, rs) g = .ok (angleDict (List.finRange d) f, rs ++ [g']) ∧
        PhaseGate d q g' ∧ SameRot g g' ∧
        lineOp d g' = twoLevel a b (rot p.theta (newPhi back p.phi (f a) (f b)))) ∨
    (∃ p a, g.kind = .virtRz p ∧ p.levA = ((a : Fin d) : Nat) ∧
      lineOp d g = (diagonal fun i => if i = a then cexp (-I * p.phi) else 1) ∧
      propStep q d back (angleDict (List.finRange d) f, rs) g =
        .ok (angleDict (List.finRange d) (Function.update f a (piMod (f a + p.phi))), rs)) := by
  obtain ⟨ht, hd, hc, hdag, ⟨p, hk, h0, h1, h2⟩ | ⟨p, hk, h0, h1⟩⟩ := hg
  · left
    obtain ⟨a, b, h⟩ := goodLevels_of h0 h1 h2
    refine ⟨p, a, b, hk, h, lineOp_r hd hdag hk h, ?_⟩
    obtain ⟨g', hg', e⟩ := newR_ok q h (newPhi back p.phi (f a) (f b))
    refine ⟨g', ?_, ?_, ?_, ?_⟩
    · unfold propStep
      rw [hk]
      dsimp only
      rw [angleAt, angleAt, h.a_eq, h.b_eq, get?_angleDict _ _ _ (List.mem_finRange _), get?_angleDict _ _ _ (List.mem_finRange _)]
      change (newR q d p (newPhi back p.phi (f a) (f b)) >>= fun r => _) = _
      rw [hg']
      rfl
    · rw [e]
      exact ⟨rfl, rfl, rfl, rfl, Or.inl ⟨_, rfl, h0, h1, h2⟩⟩
    · rw [e]
      exact ⟨p, _, hk, rfl, rfl, rfl, rfl⟩
    · rw [e, lineOp_r (p := ⟨p.levA, p.levB, regulateTheta p.theta, newPhi back p.phi (f a) (f b)⟩) (a := a) (b := b)
        rfl rfl rfl ⟨h.a_eq, h.b_eq, h.lt⟩, rot_regulate]
  · right
    refine ⟨p, ⟨p.levA.toNat, by omega⟩, hk, by simp; omega, lineOp_virt hd hdag hk (by simp; omega), ?_⟩
    have hl : p.levA = (((⟨p.levA.toNat, by omega⟩ : Fin d) : Nat) : Int) := by simp; omega
    unfold propStep
    rw [hk]
    dsimp only
    rw [angleAt]
    conv_lhs => rw [hl]
    rw [get?_angleDict _ _ _ (List.mem_finRange _)]
    change Except.ok _ = _
    rw [set_angleDict _ (List.nodup_finRange d) _ _ (List.mem_finRange _)]

theorem rotations_append (a b : List PInstr) : rotations (a ++ b) = rotations a ++ rotations b := List.filter_append ..

theorem forward (q : Int) (line : List PInstr) (hl : ∀ g ∈ line, PhaseGate d q g) :
    ∃ (f : Fin d → ℝ) (rs : List PInstr),
      line.foldlM (propStep q d false) (angleDict (List.finRange d) (fun _ => 0), []) =
        .ok (angleDict (List.finRange d) f, rs) ∧
      (∀ g ∈ rs, PhaseGate d q g) ∧ List.Forall₂ SameRot (rotations line) rs ∧
      circuitOp (lineOp d) line = zdiag f * circuitOp (lineOp d) rs := by
  induction line using List.reverseRecOn with
  | nil => exact ⟨fun _ => 0, [], rfl, by simp, List.Forall₂.nil, by rw [zdiag_zero, one_mul]⟩
  | append_singleton line g ih =>
    obtain ⟨f, rs, h1, h2, h3, h4⟩ := ih (fun x hx => hl x (List.mem_append_left _ hx))
    rw [List.foldlM_append, h1]
    change ∃ f' rs', ([g].foldlM (propStep q d false) (angleDict (List.finRange d) f, rs)) = _ ∧ _
    rcases phaseGate_step false f rs g (hl g (by simp)) with
      ⟨p, a, b, hk, hgl, hop, g', e, hg', hs, hop'⟩ | ⟨p, a, hk, hla, hop, e⟩
    · refine ⟨f, rs ++ [g'], ?_, ?_, ?_, ?_⟩
      · rw [List.foldlM_cons, e]; rfl
      · intro x hx
        rcases List.mem_append.1 hx with h | h
        · exact h2 x h
        · rw [List.mem_singleton] at h; rw [h]; exact hg'
      · rw [rotations_append]
        have : rotations [g] = [g] := by simp [rotations, hk]
        rw [this]
        exact List.rel_append h3 (List.Forall₂.cons hs List.Forall₂.nil)
      · rw [circuitOp_append, circuitOp_append, h4, circuitOp_cons, circuitOp_nil, one_mul, circuitOp_cons, circuitOp_nil,
          one_mul, hop, hop', ← mul_assoc, ← mul_assoc, zdiag_rot f (ne_of_lt hgl.lt) p.theta p.phi]
        obtain ⟨k, hk'⟩ := piMod_period (p.phi - f a + f b)
        exact ⟨k, by simp [newPhi, hk']⟩
    · refine ⟨Function.update f a (piMod (f a + p.phi)), rs, ?_, h2, ?_, ?_⟩
      · rw [List.foldlM_cons, e]; rfl
      · rw [rotations_append]
        have : rotations [g] = [] := by simp [rotations, hk]
        rw [this, List.append_nil]
        exact h3
      · rw [circuitOp_append, h4, circuitOp_cons, circuitOp_nil, one_mul, hop, ← mul_assoc, zdiag_virt f a _ p.phi (piMod_period _)]

theorem backward (q : Int) (line : List PInstr) (hl : ∀ g ∈ line, PhaseGate d q g) :
    ∃ (f : Fin d → ℝ) (rs : List PInstr),
      line.foldlM (propStep q d true) (angleDict (List.finRange d) (fun _ => 0), []) =
        .ok (angleDict (List.finRange d) f, rs) ∧
      (∀ g ∈ rs, PhaseGate d q g) ∧ List.Forall₂ SameRot (rotations line) rs ∧
      (line.map (lineOp d)).prod = (rs.map (lineOp d)).prod * zdiag f := by
  induction line using List.reverseRecOn with
  | nil => exact ⟨fun _ => 0, [], rfl, by simp, List.Forall₂.nil, by rw [zdiag_zero, mul_one]⟩
  | append_singleton line g ih =>
    obtain ⟨f, rs, h1, h2, h3, h4⟩ := ih (fun x hx => hl x (List.mem_append_left _ hx))
    rw [List.foldlM_append, h1]
    change ∃ f' rs', ([g].foldlM (propStep q d true) (angleDict (List.finRange d) f, rs)) = _ ∧ _
    rcases phaseGate_step true f rs g (hl g (by simp)) with
      ⟨p, a, b, hk, hgl, hop, g', e, hg', hs, hop'⟩ | ⟨p, a, hk, hla, hop, e⟩
    · refine ⟨f, rs ++ [g'], ?_, ?_, ?_, ?_⟩
      · rw [List.foldlM_cons, e]; rfl
      · intro x hx
        rcases List.mem_append.1 hx with h | h
        · exact h2 x h
        · rw [List.mem_singleton] at h; rw [h]; exact hg'
      · rw [rotations_append]
        have : rotations [g] = [g] := by simp [rotations, hk]
        rw [this]
        exact List.rel_append h3 (List.Forall₂.cons hs List.Forall₂.nil)
      · rw [List.map_append, List.prod_append, h4, List.map_append, List.prod_append, List.map_singleton, List.map_singleton,
          List.prod_singleton, List.prod_singleton, hop, hop', mul_assoc, mul_assoc,
          zdiag_rot f (ne_of_lt hgl.lt) p.theta (newPhi true p.phi (f a) (f b)) p.phi]
        obtain ⟨k, hk'⟩ := piMod_period (p.phi + f a - f b)
        exact ⟨-k, by simp [newPhi, hk']; ring⟩
    · refine ⟨Function.update f a (piMod (f a + p.phi)), rs, ?_, h2, ?_, ?_⟩
      · rw [List.foldlM_cons, e]; rfl
      · rw [rotations_append]
        have : rotations [g] = [] := by simp [rotations, hk]
        rw [this, List.append_nil]
        exact h3
      · rw [List.map_append, List.prod_append, h4, List.map_singleton, List.prod_singleton, hop, mul_assoc,
          ← zdiag_virt f a _ p.phi (piMod_period _), zdiag, diagonal_mul_diagonal, diagonal_mul_diagonal]
        simp only [mul_comm]

theorem newVirtRz_eq (q : Int) (a : Fin d) (x : ℝ) : newVirtRz q d (((a : Nat) : Int), x) =
    ⟨.virtRz { levA := ((a : Nat) : Int), phi := regulateTheta x }, .one q, d, none, false⟩ := by
  unfold newVirtRz virtRzInit
  dsimp only
  rw [if_pos (by have := a.2; omega)]

theorem zseq_op (q : Int) (f : Fin d → ℝ) (L : List (Fin d)) (hL : L.Nodup) :
    circuitOp (lineOp d) ((angleDict L f).map (newVirtRz q d)) =
      diagonal fun i => if i ∈ L then cexp (-I * f i) else 1 := by
  induction L with
  | nil => simp [angleDict, circuitOp_nil]
  | cons a L ih =>
    rw [List.nodup_cons] at hL
    change circuitOp (lineOp d) (newVirtRz q d (((a : Nat) : Int), f a) :: (angleDict L f).map (newVirtRz q d)) = _
    rw [circuitOp_cons, ih hL.2, newVirtRz_eq, lineOp_virt (a := a) rfl rfl rfl rfl, diagonal_mul_diagonal]
    congr 1
    funext i
    dsimp only
    rw [cexp_regulate]
    by_cases hi : i = a
    · subst hi
      simp [hL.1]
    · simp [hi]

end Qudits.PhasePass
