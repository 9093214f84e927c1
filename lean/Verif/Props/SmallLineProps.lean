import Verif.Lemmas.SmallLine
/-
C73: lines that use only the first levels of a device.
-/
namespace Qudits
open Spec Matrix LGraph LocalQR Complex

section
variable {d k : Nat}

/-- the array of `u` on the first levels, of the identity on the others -/
noncomputable def padArr (d k : Nat) (u : Arr2 ℂ) : Arr2 ℂ :=
  ⟨d + k, d + k, fun i j => if i < d ∧ j < d then u.at' i j else if i = j then 1 else 0⟩

theorem padArr_padded {u : Arr2 ℂ} (h : UnitaryArr u d) : Padded d k u (padArr d k u) := by
  refine ⟨h.1, h.2.1, rfl, rfl, padM_ext ?_ ?_ ?_ ?_⟩
  · intro i j
    simp [Arr2.toM, padArr]
  · intro i j
    simp [Arr2.toM, padArr, Fin.ext_iff]
  · intro i j
    have := i.isLt
    simp only [Arr2.toM, padArr, Fin.val_castAdd, Fin.val_natAdd]
    rw [if_neg (by omega), if_neg (by omega)]
  · intro i j
    have := j.isLt
    simp only [Arr2.toM, padArr, Fin.val_castAdd, Fin.val_natAdd]
    rw [if_neg (by omega), if_neg (by omega)]

theorem padArr_unitary {u : Arr2 ℂ} (h : UnitaryArr u d) : UnitaryArr (padArr d k u) (d + k) :=
  ⟨rfl, rfl, by rw [(padArr_padded h).mat]; exact padM_unitary h.2.2⟩

theorem padM_unitary_iff {A : Matrix (Fin d) (Fin d) ℂ} (h : padM k A ∈ unitaryGroup (Fin (d + k)) ℂ) : A ∈ unitaryGroup (Fin d) ℂ := by
  rw [mem_unitaryGroup_iff] at *
  rw [star_eq_conjTranspose, ← padM_conjTranspose, ← padM_mul, ← star_eq_conjTranspose] at h
  exact padM_inj (h.trans padM_one.symm)

theorem relabel_low {LP : Equiv.Perm (Fin (d + k))} {lp : Equiv.Perm (Fin d)} (h : ∀ i : Fin d, LP (Fin.castAdd k i) = Fin.castAdd k (lp i))
    (A : Matrix (Fin d) (Fin d) ℂ) (i j : Fin d) :
    (relabelling LP * padM k A * (relabelling LP)ᴴ) (Fin.castAdd k i) (Fin.castAdd k j) = (relabelling lp * A * (relabelling lp)ᴴ) i j := by
  have hs : ∀ i : Fin d, LP.symm (Fin.castAdd k i) = Fin.castAdd k (lp.symm i) := by
    intro i
    rw [Equiv.symm_apply_eq, h, Equiv.apply_symm_apply]
  rw [← conjHom_eq, ← conjHom_eq]
  show padM k A (LP.symm _) (LP.symm _) = A (lp.symm i) (lp.symm j)
  rw [hs, hs, padM_low]

end

section
variable {d D : Nat} {g : LGraph} {lp : Equiv.Perm (Fin d)} {sp : PathFinder}

theorem small_key' (E : Prop) (hd : d ≤ D) {LP : Equiv.Perm (Fin D)} (h1 : Device D g LP) (h2 : NoPhases D g)
    (h3 : ∀ (i : Fin d) (j : Fin D), (j : Nat) = i → (LP j : Nat) = lp i) (hsp : FindsPaths sp) (hE : E ∨ AlwaysStays d sp g) (q : Int) (u : Arr2 ℂ)
    (hu : UnitaryArr u d) :
    (E ∧ phyPassGate sp q d u g = .error .assertionError) ∨
    ∃ l g', phyPassGate sp q d u g = .ok (l, g') ∧ (∀ x ∈ l, OnLine q d x ∧ Confined d x ∧ (CoupledRotation g x ∨ PhaseRotation x)) ∧
      l.length ≤ (2 * D - 3) * (D * (D - 1) / 2) + D ∧
      Near (D * qrError D 1e-8 1e-4) (circuitOp (PhasePass.lineOp d) l) (relabelling lp * u.toM d * (relabelling lp)ᴴ) ∧
      (Device D g' LP ∧ NoPhases D g') ∧ circuitOp (PhasePass.lineOp d) l ∈ unitaryGroup (Fin d) ℂ := by
  obtain ⟨k, rfl⟩ := Nat.exists_eq_add_of_le hd
  have hLP : ∀ i : Fin d, LP (Fin.castAdd k i) = Fin.castAdd k (lp i) := fun i => Fin.ext (h3 i (Fin.castAdd k i) rfl)
  obtain ⟨l', g', e1, e2, e3, e4, e5, e6, e7⟩ := C35_physical h1 h2 hsp q (padArr d k u) (padArr_unitary hu)
  have hb := phyPass_below h1 h2 (fun i hi => by
    have := h3 ⟨i, hi⟩ i rfl
    have := (lp ⟨i, hi⟩).isLt
    omega) q (padArr_padded (k := k) hu) hE
  rw [e1] at hb
  rcases hb.of_ok with hb' | ⟨⟨l, g''⟩, hb', ⟨hl, hs⟩, hg⟩
  · exact Or.inl hb'
  · simp only at hl hs hg
    subst hg
    rw [hl, small_circuit hs] at e4 e7
    refine Or.inr ⟨l, _, hb', fun x hx => ⟨(hs x hx).1, (hs x hx).2, ?_⟩, ?_, ?_, ⟨e5, e6⟩, padM_unitary_iff e7⟩
    · exact e2 (setDim (d + k) x) (by rw [hl]; exact List.mem_map_of_mem hx)
    · rw [hl, List.length_map] at e3
      exact e3
    · intro i j
      have := e4 (Fin.castAdd k i) (Fin.castAdd k j)
      rw [Matrix.sub_apply, padM_low, (padArr_padded hu).mat, relabel_low hLP] at this
      exact this

theorem small_key (E : Prop) (h : Roomy d D g lp) (hsp : FindsPaths sp) (hE : E ∨ AlwaysStays d sp g) (q : Int) (u : Arr2 ℂ) (hu : UnitaryArr u d) :
    (E ∧ phyPassGate sp q d u g = .error .assertionError) ∨
    ∃ l g', phyPassGate sp q d u g = .ok (l, g') ∧ (∀ x ∈ l, OnLine q d x ∧ Confined d x ∧ (CoupledRotation g x ∨ PhaseRotation x)) ∧
      l.length ≤ (2 * D - 3) * (D * (D - 1) / 2) + D ∧
      Near (D * qrError D 1e-8 1e-4) (circuitOp (PhasePass.lineOp d) l) (relabelling lp * u.toM d * (relabelling lp)ᴴ) ∧
      Roomy d D g' lp ∧ circuitOp (PhasePass.lineOp d) l ∈ unitaryGroup (Fin d) ℂ := by
  obtain ⟨hd, LP, h1, h2, h3⟩ := h
  refine (small_key' E hd h1 h2 h3 hsp hE q u hu).imp id ?_
  rintro ⟨l, g', e1, e2, e3, e4, e5, e6⟩
  exact ⟨l, g', e1, e2, e3, e4, ⟨hd, LP, e5.1, e5.2, h3⟩, e6⟩

/-- `PhyLocQRPass.transpile_gate` for a line that uses the first levels of a larger device: it raises AssertionError, or its gates are on these
levels, the device can do them, and they multiply to the gate on the places of the levels. Missing: that it does not raise; for this see
below. -/
theorem C73_gate_partial (h : Roomy d D g lp) (hsp : FindsPaths sp) (q : Int) (u : Arr2 ℂ) (hu : UnitaryArr u d) :
    phyPassGate sp q d u g = .error .assertionError ∨
    ∃ l g', phyPassGate sp q d u g = .ok (l, g') ∧ (∀ x ∈ l, OnLine q d x ∧ Confined d x ∧ (CoupledRotation g x ∨ PhaseRotation x)) ∧
      l.length ≤ (2 * D - 3) * (D * (D - 1) / 2) + D ∧
      Near (D * qrError D 1e-8 1e-4) (circuitOp (PhasePass.lineOp d) l) (relabelling lp * u.toM d * (relabelling lp)ᴴ) ∧
      Roomy d D g' lp ∧ circuitOp (PhasePass.lineOp d) l ∈ unitaryGroup (Fin d) ℂ :=
  (small_key True h hsp (Or.inl trivial) q u hu).imp And.right id

/-- It does not raise if the paths taken between neighbouring levels of the line stay among the levels of the line. -/
theorem C73_gate_stays (h : Roomy d D g lp) (hsp : FindsPaths sp) (hst : AlwaysStays d sp g) (q : Int) (u : Arr2 ℂ) (hu : UnitaryArr u d) :
    ∃ l g', phyPassGate sp q d u g = .ok (l, g') ∧ (∀ x ∈ l, OnLine q d x ∧ Confined d x ∧ (CoupledRotation g x ∨ PhaseRotation x)) ∧
      l.length ≤ (2 * D - 3) * (D * (D - 1) / 2) + D ∧
      Near (D * qrError D 1e-8 1e-4) (circuitOp (PhasePass.lineOp d) l) (relabelling lp * u.toM d * (relabelling lp)ᴴ) ∧
      Roomy d D g' lp ∧ circuitOp (PhasePass.lineOp d) l ∈ unitaryGroup (Fin d) ℂ :=
  (small_key False h hsp (Or.inr hst) q u hu).elim (fun h => h.1.elim) id

theorem confined_diagonal {x : PInstr} {q : Int} (h1 : OnLine q d x) (h2 : Confined d x) (h3 : PhaseRotation x) :
    ∃ z, PhasePass.lineOp d x = diagonal z := by
  obtain ⟨p', hp'⟩ := h3
  rcases h2 with ⟨p, hp, _⟩ | ⟨p, hp, h4, h5⟩
  · rw [hp'] at hp; cases hp
  · obtain ⟨a, ha⟩ : ∃ a : Fin d, p.levA = (a : Nat) := ⟨⟨p.levA.toNat, by omega⟩, by simp; omega⟩
    cases hx : x.dagger with
    | false => exact ⟨_, PhasePass.lineOp_virt h1.2.1 hx hp ha⟩
    | true =>
      have e1 : x = dag { x with dagger := false } := by
        cases x; simp only at hx; subst hx; rfl
      rw [e1, lineOp_dag _ rfl, PhasePass.lineOp_virt (g := { x with dagger := false }) h1.2.1 rfl hp ha, diagonal_conjTranspose]
      exact ⟨_, rfl⟩

theorem diagonal_circuit {l : List PInstr} (h : ∀ x ∈ l, ∃ z, PhasePass.lineOp d x = diagonal z) : ∃ z, circuitOp (PhasePass.lineOp d) l = diagonal z := by
  induction l with
  | nil => exact ⟨fun _ => 1, by rw [circuitOp_nil, diagonal_one]⟩
  | cons x l ih =>
    obtain ⟨z, hz⟩ := h x (by simp)
    obtain ⟨w, hw⟩ := ih fun y hy => h y (List.mem_cons_of_mem _ hy)
    rw [circuitOp_cons, hz, hw, diagonal_mul_diagonal]
    exact ⟨_, rfl⟩

/-- If no two levels of the line are coupled, only gates that are nearly diagonal are translated; others raise. -/
theorem C73_uncoupled_violated (h : Roomy d D g lp) (hsp : FindsPaths sp) (hno : ∀ a b data, a < (d : Int) → b < (d : Int) → ¬ PhysEdge g a b data)
    (q : Int) (u : Arr2 ℂ) (hu : UnitaryArr u d) (i j : Fin d) (hij : i ≠ j) (hij' : D * qrError D 1e-8 1e-4 < ‖u.toM d i j‖) :
    phyPassGate sp q d u g = .error .assertionError := by
  rcases C73_gate_partial h hsp q u hu with e | ⟨l, g', _, h2, _, h4, _⟩
  · exact e
  · exfalso
    obtain ⟨z, hz⟩ : ∃ z, circuitOp (PhasePass.lineOp d) l = diagonal z := by
      refine diagonal_circuit fun x hx => ?_
      obtain ⟨k1, k2, k3⟩ := h2 x hx
      refine confined_diagonal k1 k2 (k3.resolve_left ?_)
      rintro ⟨p, data, e1, e2⟩
      rcases k2 with ⟨p', e3, _, e4, e5⟩ | ⟨p', e3, _⟩
      · rw [e1] at e3
        cases e3
        exact hno _ _ _ (by omega) e5 e2
      · rw [e1] at e3
        cases e3
    have := h4 (lp i) (lp j)
    rw [hz, ← conjHom_eq, Matrix.sub_apply, diagonal_apply_ne _ (fun e => hij (lp.injective e)), zero_sub, norm_neg] at this
    change ‖u.toM d (lp.symm (lp i)) (lp.symm (lp j))‖ ≤ _ at this
    rw [Equiv.symm_apply_apply, Equiv.symm_apply_apply] at this
    exact absurd hij' (not_lt.2 this)

end
end Qudits
