import Verif.Props.TnsimProps
import Verif.Spec.CustomSpec
/- Lemmas for C82. -/
namespace Qudits.Custom
open Spec Matrix Tnsim
variable {n : Nat}

theorem gateInit_fields {dims : List Nat} {name : String} {ty : GateType} {t : Target} {g : Gate} (h : Gate.init dims name ty t none = .ok g) :
    g.dims = dims ∧ g.target = t ∧ g.controls = none ∧ g.dagger = false ∧ g.gateType = ty := by
  unfold Gate.init at h
  simp only [bind, Except.bind, pure, Except.pure] at h
  split at h
  · cases h
  · injection h with h
    subst h
    exact ⟨rfl, rfl, rfl, rfl, rfl⟩

theorem gateInit_type {dims : List Nat} {name : String} {ty ty' : GateType} {t : Target} {g : Gate} (h : Gate.init dims name ty t none = .ok g) :
    Gate.init dims name ty' t none = .ok { g with gateType := ty' } := by
  unfold Gate.init Gate.checkLongRange Gate.referenceLines Gate.controlLines at h ⊢
  simp only [bind, Except.bind, pure, Except.pure] at h ⊢
  split_ifs at h ⊢ with h1
  dsimp only at h ⊢
  split_ifs at h ⊢ with h2
  · dsimp only at h ⊢
    rw [← Except.ok.inj h]
  · dsimp only at h ⊢
    rw [← Except.ok.inj h]

theorem iterate_dag (o : Obj) (k : Nat) :
    (Obj.dag^[k] o).source = o.source ∧ (Obj.dag^[k] o).gate.dims = o.gate.dims ∧ (Obj.dag^[k] o).gate.target = o.gate.target ∧
    (Obj.dag^[k] o).gate.controls = o.gate.controls ∧ (Obj.dag^[k] o).gate.gateType = o.gate.gateType ∧
    (Obj.dag^[k] o).gate.longRange = o.gate.longRange := by
  induction k with
  | zero => exact ⟨rfl, rfl, rfl, rfl, rfl, rfl⟩
  | succ k ih =>
    rw [Function.iterate_succ_apply']
    exact ih

/-- what the methods make -/
theorem made_init {d : Fin n → Nat} {o : Obj} {ts : List (Fin n)} (h : MadeBy d o ts) :
    ∃ name ty t, Gate.init (List.ofFn d) name ty t none = .ok o.gate ∧ (ty = typeFor ts.length ∨ ty = .multi) ∧
      t.lines = ts.map fun i : Fin n => ((i : Nat) : Int) := by
  have hl : (ts.map Fin.val).map Int.ofNat = ts.map fun i : Fin n => ((i : Nat) : Int) := by
    rw [List.map_map]
    rfl
  have hbind : ∀ {β γ : Type} {x : Except PyErr β} {f : β → Except PyErr γ} {y : γ}, x.bind f = .ok y → ∃ a, x = .ok a ∧ f a = .ok y := by
    intro β γ x f y hx
    cases x with
    | error e => cases hx
    | ok a => exact ⟨a, rfl, hx⟩
  rcases h with ⟨q, p, rfl, h⟩ | ⟨p, hlen, h⟩ | ⟨p, h⟩ | h
  · obtain ⟨dq, _, h⟩ := hbind h
    unfold init at h
    obtain ⟨g, hg, h⟩ := hbind h
    cases h
    exact ⟨_, _, _, hg, .inl rfl, rfl⟩
  · obtain ⟨ds, _, h⟩ := hbind h
    unfold init at h
    obtain ⟨g, hg, h⟩ := hbind h
    cases h
    exact ⟨_, _, _, hg, .inl (by rw [hlen]; rfl), hl⟩
  · obtain ⟨ds, _, h⟩ := hbind h
    unfold init at h
    obtain ⟨g, hg, h⟩ := hbind h
    cases h
    exact ⟨_, _, _, hg, .inr rfl, hl⟩
  · obtain ⟨ds, _, h⟩ := hbind h
    obtain ⟨g, hg, h⟩ := hbind h
    cases h
    exact ⟨_, _, _, hg, .inr rfl, hl⟩

theorem used_ok {d : Fin n → Nat} {o : Obj} {ts : List (Fin n)} (h : UsedBy d o ts) (hne : ts ≠ []) (hnd : ts.Nodup) {A : Arr2 ℂ} (hA : Fits d ts A) :
    Flagged d o.gate ts ∧ HasOperator d o.gate A (arrayOp d o ts A) := by
  obtain ⟨o₀, k, hmade, rfl⟩ := h
  obtain ⟨-, h2, h3, h4, h5, h6⟩ := iterate_dag o₀ k
  obtain ⟨name, ty, t, hg, hty, ht⟩ := made_init hmade
  obtain ⟨g1, g2, g3, g4, g5⟩ := gateInit_fields hg
  have hg' := gateInit_type (ty' := typeFor ts.length) hg
  obtain ⟨hfl, -⟩ := constructed_flagged d name t ts A _ hne hnd ht hg' hA.1 hA.2
  have hcl : (Obj.dag^[k] o₀).gate.controlLines = o₀.gate.controlLines := by
    unfold Gate.controlLines
    rw [h4]
  constructor
  · refine ⟨h2.trans g1, ?_, hnd, hne, ?_, ?_⟩
    · rw [hcl, h3]
      exact hfl.lines
    · rw [h5, g5]
      exact hty
    · rw [h6, hcl, h3]
      exact hfl.long
  · obtain ⟨B, hB, hBr, hBc, hBe⟩ := C12_full_register d (Obj.dag^[k] o₀).gate ts A (h2.trans g1) (by rw [h3, g2, ht]) (h4.trans g3) hnd hne hA.1 hA.2
    refine ⟨B, hB, hBr, hBc, fun x y => ?_⟩
    rw [hBe]
    unfold arrayOp
    by_cases hd : (Obj.dag^[k] o₀).gate.dagger = true
    · rw [if_pos hd, if_pos hd]
      rfl
    · rw [if_neg hd, if_neg hd]

/-- the arrays that the simulator gets -/
theorem arrays_ok (mem draws : Nat → Arr2 ℂ) (k : Nat) (os : List Obj) (As : List (Arr2 ℂ)) (hlen : As.length = os.length)
    (h : ∀ i, i < os.length → (match os[i]? with
      | some ⟨_, .stored a⟩ => a.map mem
      | some ⟨_, .drawn⟩ => some (draws (k + ((os.take i).filter fun o => decide (o.source = .drawn)).length))
      | none => none) = As[i]?) :
    arrays mem draws k os = .ok ((os.map Obj.gate).zip As) := by
  induction os generalizing k As with
  | nil => rfl
  | cons o os ih =>
    obtain _ | ⟨A, As⟩ := As
    · cases hlen
    have h0 := h 0 (by simp)
    obtain ⟨g, src⟩ := o
    cases src with
    | drawn =>
      have hrest := ih (k + 1) As (by simpa using hlen) (by
        intro i hi
        have := h (i + 1) (by simpa using hi)
        simp only [List.getElem?_cons_succ, List.take_succ_cons] at this
        rw [← this]
        split
        · rfl
        · rw [List.filter_cons, if_pos (by simp), List.length_cons]
          congr 2
          omega
        · rfl)
      unfold arrays
      simp only [bind, Except.bind, hrest]
      simp at h0
      rw [h0]
      rfl
    | stored a =>
      have hrest := ih k As (by simpa using hlen) (by
        intro i hi
        have := h (i + 1) (by simpa using hi)
        simp only [List.getElem?_cons_succ, List.take_succ_cons] at this
        rw [← this]
        split
        · rfl
        · rw [List.filter_cons, if_neg (by simp)]
        · rfl)
      simp only [List.getElem?_cons_zero] at h0
      cases a with
      | none => cases h0
      | some a =>
        unfold arrays
        simp only [bind, Except.bind, hrest]
        simp at h0
        rw [h0]
        rfl

theorem arrayOp_unitary {d : Fin n → Nat} (o : Obj) {ts : List (Fin n)} {A : Arr2 ℂ} (h : UnitaryOn d ts A) :
    arrayOp d o ts A ∈ unitaryGroup (Reg d) ℂ := by
  unfold arrayOp
  apply embed_mem_unitary
  have : onLines d ts.toFinset A.at' ∈ unitaryGroup _ ℂ := by
    rw [onLines_eq, submatrix_mem_unitary]
    exact h
  split
  · exact Unitary.star_mem this
  · exact this

theorem zeroState_norm (d : Fin n → Nat) (hpos : ∀ i, 0 < d i) : star (zeroState (α := ℂ) d) ⬝ᵥ zeroState d = 1 := by
  unfold dotProduct
  rw [Finset.sum_eq_single (fun i => (⟨0, hpos i⟩ : Fin (d i)))]
  · simp [zeroState]
  · intro x _ hx
    have : ¬∀ i, ((x i : Fin (d i)) : Nat) = 0 := by
      intro h
      apply hx
      funext i
      exact Fin.ext (h i)
    simp [zeroState, this]
  · simp

theorem norm_kept {ι : Type} [Fintype ι] [DecidableEq ι] {U : Matrix ι ι ℂ} (hU : U ∈ unitaryGroup ι ℂ) (v : ι → ℂ) :
    star (U *ᵥ v) ⬝ᵥ (U *ᵥ v) = star v ⬝ᵥ v := by
  rw [star_mulVec, dotProduct_mulVec, vecMul_vecMul, ← dotProduct_mulVec]
  have : Uᴴ * U = 1 := by
    have := (mem_unitaryGroup_iff'.1 hU)
    rwa [star_eq_conjTranspose] at this
  rw [this, one_mulVec]

end Qudits.Custom
