import Verif.Lemmas.Misim
import Verif.Props.TnsimProps
/-
Properties C17 (sums and controlled exchanges), C18 and C19: the decision-diagram simulator.
-/
namespace Qudits
open Spec Matrix DD

variable {n : Nat}

theorem Spec.Made.target {d : Fin n → Nat} {g : Gate} {t : Target} {ts : List (Fin n)} (hg : Made d g t ts) : g.target = t := by
  obtain ⟨_, name, g0, k, h0, rfl⟩ := hg
  obtain ⟨_, _, h, _⟩ := dag_iterate g0 k
  rw [h]
  unfold Gate.init at h0
  simp only [bind, Except.bind, pure, Except.pure] at h0
  split at h0
  · cases h0
  · injection h0 with h0
    subst h0
    rfl

/-! ### C17: two-line gates -/

/-- C17: the diagram of `csum` represents the full-register operator of the Python gate CSum (its adjoint if the gate is
daggered), for every register, every pair of different lines and any earlier use of the package. -/
theorem C17_csum (H : Hashes) (d : Fin n → Nat) (hpos : ∀ i, 0 < d i) (g : Gate) (c q : Fin n)
    (hg : Made d g (.many [(c : Nat), (q : Nat)]) [c, q]) (hcq : c ≠ q) (h2 : 2 ≤ d q) (h7 : d q ≤ 7)
    (t : Tables) (ht : Reachable H t) :
    ∃ arr e t', csumArray (c : Nat) (q : Nat) (d c) (d q) = .ok arr ∧ csum H (regs d) c q g.dagger t = .ok (e, t') ∧
      Reachable H t' ∧ Proper .mat (regs d) e ∧ HasOperator d g arr (matOf d e) := by
  obtain ⟨arr, M, harr, _, hop, hgate⟩ := csum_agree (H := H) hpos g c q hg hcq h2 h7
  obtain ⟨e, t', he, ht', hp, hm⟩ := hgate t ht
  refine ⟨arr, e, t', ?_, ?_, ht', hp, hm ▸ hop⟩
  · unfold PyGate.array at harr
    rw [hg.target] at harr
    exact harr
  · unfold getGate readInstr at he
    rw [hg.target] at he
    exact he

/-- C17: in plain words, the diagram of `csum` adds the level of the control line to the level of the target line. -/
theorem C17_csum_entry (H : Hashes) (d : Fin n → Nat) (hpos : ∀ i, 0 < d i) (c q : Fin n) (hcq : c ≠ q) (h2 : 2 ≤ d q)
    (h7 : d q ≤ 7) (t : Tables) (ht : Reachable H t) (dag : Bool) :
    ∃ e t', csum H (regs d) c q dag t = .ok (e, t') ∧ Proper .mat (regs d) e ∧ ∀ x y,
      matOf d e x y = if dag then (if (∀ i, i ≠ q → x i = y i) ∧ (y q : Nat) = (x q + x c) % d q then 1 else 0)
        else if (∀ i, i ≠ q → x i = y i) ∧ (x q : Nat) = (y q + y c) % d q then 1 else 0 := by
  obtain ⟨r, t', hr, _, hp, hm⟩ := csum_ok (H := H) hpos c q hcq h2 h7 dag t ht
  refine ⟨r, t', hr, hp, fun x y => ?_⟩
  rw [hm]
  cases dag
  · rw [if_neg (by decide), if_neg (by decide)]
    unfold shiftOp
    simp only [id]
  · rw [if_pos rfl, if_pos rfl]
    have h' : (∀ i, i ≠ q → x i = y i) ↔ ∀ i, i ≠ q → y i = x i :=
      ⟨fun h i hi => (h i hi).symm, fun h i hi => (h i hi).symm⟩
    rw [conjTranspose_apply]
    unfold shiftOp
    simp only [id]
    by_cases h : (∀ i, i ≠ q → y i = x i) ∧ (y q : Nat) = (x q + x c) % d q
    · rw [if_pos h, if_pos ⟨h'.2 h.1, h.2⟩, star_one]
    · rw [if_neg h, if_neg fun k => h ⟨h'.1 k.1, k.2⟩, star_zero]

/-- C17: the diagram of `cex` represents the full-register operator of the Python gate CEx (its adjoint if the gate is
daggered). -/
theorem C17_cex (H : Hashes) (d : Fin n → Nat) (hpos : ∀ i, 0 < d i) (g : Gate) (c q : Fin n) (l : Fin (d c)) (a b : Fin (d q))
    (phi : ℝ) (hg : Made d g (.many [(c : Nat), (q : Nat)]) [c, q]) (hcq : c ≠ q) (h7 : d q ≤ 7) (hab : a < b) (hp0 : 0 ≤ phi)
    (hp1 : phi ≤ 2 * Real.pi) (t : Tables) (ht : Reachable H t) :
    ∃ p arr e t', cexInit (.list [.int (a : Nat), .int (b : Nat), .int (l : Nat), .flt phi]) = .ok p ∧
      cexArray (c : Nat) (q : Nat) (d c) (d q) p = .ok arr ∧ cex H (regs d) l phi a b c q g.dagger t = .ok (e, t') ∧
      Reachable H t' ∧ Proper .mat (regs d) e ∧ HasOperator d g arr (matOf d e) := by
  obtain ⟨arr, M, harr, _, hop, hgate⟩ := cx_agree (H := H) hpos g c q l a b phi hg hcq h7 hab hp0 hp1
  obtain ⟨e, t', he, ht', hp, hm⟩ := hgate t ht
  unfold PyGate.array at harr
  rw [hg.target] at harr
  simp only [bind, Except.bind] at harr
  rcases hi : cexInit (.list [.int (a : Nat), .int (b : Nat), .int (l : Nat), .flt phi]) with err | p
  · rw [hi] at harr; cases harr
  rw [hi] at harr
  refine ⟨p, arr, e, t', rfl, harr, ?_, ht', hp, hm ▸ hop⟩
  unfold getGate readInstr at he
  rw [hg.target] at he
  exact he

/-- C17: both functions throw for a target line whose dimension is not between 2 and 7, in every register. -/
theorem C17_rejects (H : Hashes) (d : Fin n → Nat) (c q : Fin n) (h : d q < 2 ∨ 7 < d q) (t : Tables) (dag : Bool) :
    csum H (regs d) c q dag t = .error .invalidArgument ∧
      ∀ level phi a b, cex H (regs d) level phi a b c q dag t = .error .invalidArgument := by
  constructor
  · obtain ⟨e0, he0, _, _⟩ := makeIdent_reg d
    unfold csum
    rw [bind_run (show lift (makeIdent (regs d)) t = .ok (e0, t) by rw [he0]; rfl)]
    rw [reverse_get]
    have : xMat (d q) = none := by
      unfold xMat xTable
      split
      all_goals first | omega | rfl
    simp only [this]
    rfl
  · intro level phi a b
    unfold cex
    rw [reverse_get]
    dsimp only
    rw [if_neg (by omega)]
    rfl

/-! ### C19: the order of the amplitudes -/

theorem transpose_reverse {dims ls : List Nat} (h : Levels dims ls) :
    ((List.range dims.reverse.length).map fun m => ls.getD ((List.range dims.length).reverse.idxOf m) 0) = ls.reverse := by
  have hlen : ls.length = dims.length := h.length_eq
  apply List.ext_getElem
  · simp [hlen]
  · intro i h1 h2
    have hi : i < dims.length := by simpa using h1
    have hidx : (List.range dims.length).reverse.idxOf i = dims.length - 1 - i := by
      have hl : dims.length - 1 - i < (List.range dims.length).reverse.length := by simp; omega
      have := List.Nodup.idxOf_getElem (List.nodup_reverse.2 (List.nodup_range (n := dims.length))) (dims.length - 1 - i) hl
      rw [List.getElem_reverse, List.getElem_range] at this
      simp only [List.length_range] at this
      rw [show dims.length - 1 - (dims.length - 1 - i) = i by omega] at this
      exact this
    rw [List.getElem_map, List.getElem_range, hidx, List.getElem_reverse, List.getD_eq_getElem?_getD,
      List.getElem?_eq_getElem (by omega), Option.getD_some]
    congr 1
    omega

theorem transpose_shape (dims : List Nat) :
    ((List.range dims.length).reverse.map fun a : Nat => dims.reverse.getD a 0) = dims := by
  apply List.ext_getElem
  · simp
  · intro i h1 h2
    rw [List.getElem_map, List.getElem_reverse, List.getElem_range, List.getD_eq_getElem?_getD,
      List.getElem?_eq_getElem (by simp; omega), Option.getD_some, List.getElem_reverse]
    congr 1
    simp
    omega

/-- C19: whatever vector the engine returns (last line most significant), the reordering succeeds and puts the amplitude of the
levels `ls` at the position of `ls` with line 0 most significant. -/
theorem C19_reorder (dims : List Nat) (v : List ℂ) (hv : v.length = dims.prod) :
    ∃ w, Misim.reorder dims v = .ok w ∧ w.length = dims.prod ∧
      ∀ ls, Levels dims ls → w[index dims ls]? = v[index dims.reverse ls.reverse]? := by
  refine ⟨Misim.entries (Misim.transposeAxes ⟨dims.reverse, fun ix => v.getD (index dims.reverse ix) 0⟩ (List.range dims.length).reverse),
    ?_, ?_, ?_⟩
  · unfold Misim.reorder Misim.reshape
    rw [if_pos (by rw [hv]; exact List.prod_reverse _)]
    simp only [bind, Except.bind]
    rw [if_pos]
    · rfl
    · unfold Misim.entries Misim.transposeAxes
      rw [List.length_map, itProduct_site_length]
      dsimp only
      rw [transpose_shape]
  · unfold Misim.entries Misim.transposeAxes
    rw [List.length_map, itProduct_site_length]
    dsimp only
    rw [transpose_shape]
  · intro ls hls
    unfold Misim.entries Misim.transposeAxes
    dsimp only
    rw [transpose_shape, List.getElem?_map, itProduct_getElem? hls, Option.map_some]
    rw [transpose_reverse hls, List.getD_eq_getElem?_getD]
    have hlt : index dims.reverse ls.reverse < v.length := by
      rw [hv, ← List.prod_reverse dims]
      exact index_lt (List.rel_reverse hls)
    rw [List.getElem?_eq_getElem hlt, Option.getD_some]

/-- C19: a vector of any other length is refused. -/
theorem C19_rejects (dims : List Nat) (v : List ℂ) (hv : v.length ≠ dims.prod) :
    Misim.reorder dims v = .error .valueError := by
  unfold Misim.reorder Misim.reshape
  rw [if_neg (by rw [List.prod_reverse]; exact fun h => hv h.symm)]
  rfl

/-- The amplitude of |1,2> in a register of dimensions 2, 3 sits at engine position 2*2+1 and at circuit position 1*3+2. -/
example (v : List ℂ) (hv : v.length = 6) : ∃ w, Misim.reorder [2, 3] v = .ok w ∧ w[5]? = v[5]? ∧ w[3]? = v[1]? := by
  obtain ⟨w, hw, _, he⟩ := C19_reorder [2, 3] v (by rw [hv]; rfl)
  exact ⟨w, hw, he [1, 2] (by unfold Levels; simp), he [1, 0] (by unfold Levels; simp)⟩

/-! ### C18: agreement with the tensor-network simulator -/

theorem lists_unique {d : Fin n → Nat} {v w : List ℂ} {psi : Reg d → ℂ} (hv : Lists d v psi) (hw : Lists d w psi) : v = w := by
  apply List.ext_getElem?
  intro i
  by_cases h : i < ∏ i, d i
  · obtain ⟨x, rfl⟩ := idx_surjective d i h
    rw [hv.entry, hw.entry]
  · rw [List.getElem?_eq_none (by rw [hv.length]; omega), List.getElem?_eq_none (by rw [hw.length]; omega)]

theorem misim_lists (H : Hashes) (d : Fin n → Nat) (hpos : ∀ i, 0 < d i) (gs : List PyGate) (h : ∀ g ∈ gs, Common d g) :
    ∃ (arrs : List (Arr2 ℂ)) (Ms : List (Matrix (Reg d) (Reg d) ℂ)) (v : List ℂ),
      List.Forall₂ (fun (g : PyGate) a => g.array = .ok a) gs arrs ∧
      List.Forall₂ (fun op M => (∃ ls, Flagged d op.1 ls) ∧ HasOperator d op.1 op.2 M) ((gs.map (·.gate)).zip arrs) Ms ∧
      Misim.execute H (List.ofFn d) gs = .ok v ∧ Lists d v (Ms.reverse.prod *ᵥ zeroState d) := by
  have loop : ∀ (gs : List PyGate), (∀ g ∈ gs, Common d g) →
      ∃ (arrs : List (Arr2 ℂ)) (Ms : List (Matrix (Reg d) (Reg d) ℂ)),
      List.Forall₂ (fun (g : PyGate) a => g.array = .ok a) gs arrs ∧
      List.Forall₂ (fun op M => (∃ ls, Flagged d op.1 ls) ∧ HasOperator d op.1 op.2 M) ((gs.map (·.gate)).zip arrs) Ms ∧
      ∀ (e : Edge (regs d)) (t : Tables), Reachable H t → Proper .vec (regs d) e →
      ∃ r t', ((gs.map readInstr).foldlM (fun psi i => do
          let gate ← getGate H (regs d) i
          multiply H .vec (regs d) gate psi) e : M (Edge (regs d))) t = .ok (r, t') ∧ Proper .vec (regs d) r ∧
        vecOf d r = Ms.reverse.prod *ᵥ vecOf d e := by
    intro gs
    induction gs with
    | nil =>
      intro _
      exact ⟨[], [], .nil, .nil, fun e t _ hp => ⟨e, t, rfl, hp, by simp⟩⟩
    | cons g gs ih =>
      intro h
      obtain ⟨arrs, Ms, h1, h2, h3⟩ := ih fun g' hg' => h g' (List.mem_cons_of_mem _ hg')
      obtain ⟨arr, M, ha, hf, hop, hgate⟩ := common_agree H hpos g (h g List.mem_cons_self)
      refine ⟨arr :: arrs, M :: Ms, .cons ha h1, .cons ⟨hf, hop⟩ h2, fun e t ht hp => ?_⟩
      obtain ⟨ge, t1, hge, ht1, hpge, hm⟩ := hgate t ht
      obtain ⟨e1, t2, he1, ht2, hp1, hv1⟩ := C16_multiply_vector ht1 ge e hpge hp
      obtain ⟨r, t', hr, hpr, hvr⟩ := h3 e1 t2 ht2 hp1
      refine ⟨r, t', ?_, hpr, ?_⟩
      · rw [List.map_cons, List.foldlM_cons, bind_run (a := e1) (t' := t2)]
        · exact hr
        · rw [bind_run hge]
          exact he1
      · rw [hvr, hv1, hm, List.reverse_cons, List.prod_append, List.prod_singleton, ← mulVec_mulVec]
  obtain ⟨arrs, Ms, h1, h2, h3⟩ := loop gs h
  obtain ⟨hz, hz'⟩ := C16_zero_state (d := d) hpos
  obtain ⟨r, t', hr, hp, hv⟩ := h3 _ _ (Reachable.new (H := H)) hz
  obtain ⟨hl, hread⟩ := C16_read r hp
  obtain ⟨w, hw, hwl, hwe⟩ := C19_reorder (List.ofFn d) _ hl
  refine ⟨arrs, Ms, w, h1, h2, ?_, ?_, ?_⟩
  · unfold Misim.execute ddsimulator
    unfold regs at hr hw
    simp only [hr, hw]
  · rw [hwl, List.prod_ofFn]
  · intro x
    unfold idx
    rw [hwe _ (levels_ofFn d x), hread, hv]
    congr 3
    funext y
    rw [hz']
    unfold zeroState
    by_cases hy : ∀ i, (y i : Nat) = 0
    · rw [if_pos hy]
    · rw [if_neg hy]

/-- C18, partial: on every circuit of the uncontrolled gates of `Common` (any register, any order and number of gates, daggered
or not, whatever the hash functions of the package are) both simulators succeed and return the same vector. What is missing are
controls, see `C18_controls_violated`, and lines with more than seven levels, see `C18_dimension_violated`. -/
theorem C18_uncontrolled_partial (H : Hashes) (d : Fin n → Nat) (hn : 0 < n) (hpos : ∀ i, 0 < d i) (gs : List PyGate)
    (h : ∀ g ∈ gs, Common d g) :
    ∃ arrs v, List.Forall₂ (fun (g : PyGate) a => g.array = .ok a) gs arrs ∧
      Misim.execute H (List.ofFn d) gs = .ok v ∧ Tnsim.execute (List.ofFn d) ((gs.map (·.gate)).zip arrs) = .ok v := by
  obtain ⟨arrs, Ms, v, h1, h2, h3, h4⟩ := misim_lists H d hpos gs h
  obtain ⟨w, hw, hwl⟩ := C15_execute d hn hpos _ Ms h2
  obtain rfl := lists_unique h4 hwl
  exact ⟨arrs, v, h1, h3, hw⟩

/-- A Fourier gate on line 0, a daggered sum from line 0 to line 2 across line 1 and a rotation, in a register of dimensions 2, 3, 5. -/
example (H : Hashes) (theta phi : ℝ) : ∃ g1 g2 g3 arrs v,
    Gate.init [2, 3, 5] "h" .single (.one 0) none = .ok g1 ∧ Gate.init [2, 3, 5] "csum" .two (.many [0, 2]) none = .ok g2 ∧
      Gate.init [2, 3, 5] "rxy" .single (.one 2) none = .ok g3 ∧ v.length = 30 ∧
      Misim.execute H [2, 3, 5] [⟨g1, "h", [2], .none⟩, ⟨g2.dag, "csum", [2, 5], .none⟩,
        ⟨g3, "rxy", [5], .list [.int 1, .int 4, .flt theta, .flt phi]⟩] = .ok v ∧
      Tnsim.execute [2, 3, 5] ([g1, g2.dag, g3].zip arrs) = .ok v := by
  let d : Fin 3 → Nat := ![2, 3, 5]
  have h1 : Common d ⟨⟨[2, 3, 5], "h", .single, .one 0, none, false, false⟩, "h", [2], .none⟩ :=
    .plain _ 0 "h" ⟨rfl, "h", _, 0, rfl, rfl⟩ (by decide) (by decide) (by simp)
  have h2 : Common d ⟨Gate.dag ⟨[2, 3, 5], "csum", .two, .many [0, 2], none, false, true⟩, "csum", [2, 5], .none⟩ :=
    .csum _ 0 2 ⟨rfl, "csum", _, 1, rfl, rfl⟩ (by decide) (by decide) (by decide)
  have h3 : Common d ⟨⟨[2, 3, 5], "rxy", .single, .one 2, none, false, false⟩, "rxy", [5],
      .list [.int 1, .int 4, .flt theta, .flt phi]⟩ :=
    Common.rxy (d := d) _ 2 (1 : Fin 5) (4 : Fin 5) theta phi ⟨rfl, "rxy", _, 0, rfl, rfl⟩ (by decide : d 2 ≤ 7)
      (by decide : (1 : Fin 5) < 4)
  obtain ⟨arrs, Ms, v, _, ha, hv, hl⟩ := misim_lists H d (by decide)
    [⟨⟨[2, 3, 5], "h", .single, .one 0, none, false, false⟩, "h", [2], .none⟩,
      ⟨Gate.dag ⟨[2, 3, 5], "csum", .two, .many [0, 2], none, false, true⟩, "csum", [2, 5], .none⟩,
      ⟨⟨[2, 3, 5], "rxy", .single, .one 2, none, false, false⟩, "rxy", [5], .list [.int 1, .int 4, .flt theta, .flt phi]⟩] (by
    intro g hg
    rcases List.mem_cons.1 hg with rfl | hg
    · exact h1
    rcases List.mem_cons.1 hg with rfl | hg
    · exact h2
    rcases List.mem_cons.1 hg with rfl | hg
    · exact h3
    · cases hg)
  obtain ⟨w, hw, hwl⟩ := C15_execute d (by norm_num) (by decide) _ Ms ha
  obtain rfl := lists_unique hl hwl
  exact ⟨_, _, _, arrs, v, rfl, rfl, rfl, by rw [hl.length]; rfl, hv, hw⟩

/-- C18 is violated for controls in the strongest way: the simulator returns the same result for a circuit as for the circuit with
all controls removed. -/
theorem C18_controls_ignored_violated (H : Hashes) (dims : List Nat) (gs : List PyGate) :
    Misim.execute H dims gs =
      Misim.execute H dims (gs.map fun g => { g with gate := { g.gate with controls := none } }) := by
  have hg : ∀ g : PyGate, getGate H dims.reverse (readInstr { g with gate := { g.gate with controls := none } }) =
      getGate H dims.reverse (readInstr g) := fun g => rfl
  have hf : ∀ (gs : List PyGate) (e : Edge dims.reverse),
      ((gs.map fun g => { g with gate := { g.gate with controls := none } }).map readInstr).foldlM (fun psi i => do
        let gate ← getGate H dims.reverse i
        multiply H .vec dims.reverse gate psi) e = ((gs.map readInstr).foldlM (fun psi i => do
        let gate ← getGate H dims.reverse i
        multiply H .vec dims.reverse gate psi) e : M (Edge dims.reverse)) := by
    intro gs
    induction gs with
    | nil => intro e; rfl
    | cons g gs ih =>
      intro e
      simp only [List.map_cons, List.foldlM_cons, hg]
      congr 1
      funext e'
      exact ih e'
  unfold Misim.execute ddsimulator
  simp only [hf]

theorem tnsim_single (d : Fin n → Nat) (hn : 0 < n) (hpos : ∀ i, 0 < d i) (g : Gate) (q : Fin n) (hg : Made d g (.one (q : Nat)) [q])
    (A : Arr2 ℂ) (hr : A.rows = d q) (hc : A.cols = d q) : ∃ v, Tnsim.execute (List.ofFn d) [(g, A)] = .ok v := by
  have hprod : ∏ i ∈ [q].toFinset, d i = d q := by simp
  obtain ⟨hf, _, _, hop⟩ := made_ok d g _ [q] hg A (by simp) (by simp) (by rw [hr, hprod]) (by rw [hc, hprod])
  obtain ⟨v, hv, _⟩ := C15_execute d hn hpos [(g, A)] [_] (.cons ⟨⟨_, hf⟩, hop⟩ .nil)
  exact ⟨v, hv⟩

theorem misim_error (H : Hashes) (d : Fin n → Nat) (g : PyGate) (err : Err)
    (h : getGate H (regs d) (readInstr g) Tables.empty = .error err) : Misim.execute H (List.ofFn d) [g] = .error (.cpp err) := by
  have : ddsimulator H (List.ofFn d) [readInstr g] = .error err := by
    unfold ddsimulator
    unfold regs at h
    simp only [List.foldlM_cons, bind, StateT.bind, Except.bind]
    rw [h]
  unfold Misim.execute
  rw [List.map_cons, List.map_nil, this]

/-- C18 is violated on every line with more than seven levels: for the gate X the tensor-network simulator returns a state and
the decision-diagram simulator fails on a gate that was never set. -/
theorem C18_dimension_violated (H : Hashes) (d : Fin n → Nat) (hn : 0 < n) (hpos : ∀ i, 0 < d i) (g : Gate) (q : Fin n)
    (hg : Made d g (.one (q : Nat)) [q]) (h8 : 7 < d q) :
    (∃ arr v, (⟨g, "x", [d q], .none⟩ : PyGate).array = .ok arr ∧ Tnsim.execute (List.ofFn d) [(g, arr)] = .ok v) ∧
      Misim.execute H (List.ofFn d) [⟨g, "x", [d q], .none⟩] = .error (.cpp .nullPointer) := by
  constructor
  · obtain ⟨A, hA, hr, hc, _⟩ := xArray_ok (d q)
    obtain ⟨v, hv⟩ := tnsim_single d hn hpos g q hg A hr hc
    exact ⟨A, v, hA, hv⟩
  · apply misim_error
    have hm : singleMat "x" [d q] .none = .ok none := by
      have : tableDim [d q] = none := by
        unfold tableDim
        dsimp only
        rw [if_neg (by omega)]
      unfold singleMat
      simp [this]
    unfold getGate readInstr
    rw [hg.target]
    change ((lift (singleMat "x" [d q] .none) >>= _ : M _) Tables.empty) = _
    rw [hm]
    rfl

/-- C18 is violated for levels given in descending order on every line with three to seven levels: Python sorts the levels and the
tensor-network simulator returns a state, the decision-diagram simulator throws. -/
theorem C18_levels_violated (H : Hashes) (d : Fin n → Nat) (hn : 0 < n) (hpos : ∀ i, 0 < d i) (g : Gate) (q : Fin n)
    (hg : Made d g (.one (q : Nat)) [q]) (h3 : 3 ≤ d q) (h7 : d q ≤ 7) (a b : Fin (d q)) (hab : a < b) (theta phi : ℝ) :
    let p : PyGate := ⟨g, "rxy", [d q], .list [.int (b : Nat), .int (a : Nat), .flt theta, .flt phi]⟩
    (∃ arr v, p.array = .ok arr ∧ Tnsim.execute (List.ofFn d) [(g, arr)] = .ok v) ∧
      Misim.execute H (List.ofFn d) [p] = .error (.cpp .invalidArgument) := by
  have hlt : (a : Nat) < b := hab
  have ha := a.2
  have hb := b.2
  constructor
  · have hi : ∃ r, rInit (d q) (.list [.int (b : Nat), .int (a : Nat), .flt theta, .flt phi]) = .ok r := by
      unfold rInit
      simp only [needInt, needFlt, bind, Except.bind, pure, Except.pure, List.getElem?_cons_zero, List.getElem?_cons_succ]
      unfold checkLevels
      rw [if_pos (by omega)]
      exact ⟨_, rfl⟩
    obtain ⟨r, hr⟩ := hi
    obtain ⟨_, _, _, _, x, y, _, _, _, _, _, hgood, _⟩ := rInit_ok hr
    obtain ⟨A, hA, h1, h2, _⟩ := rArray_ok hgood
    obtain ⟨v, hv⟩ := tnsim_single d hn hpos g q hg A h1 h2
    refine ⟨A, v, ?_, hv⟩
    change (do rArray (d q) (← rInit (d q) _)) = _
    rw [hr]
    exact hA
  · apply misim_error
    have hm : singleMat "rxy" [d q] (.list [.int (b : Nat), .int (a : Nat), .flt theta, .flt phi]) = .error .invalidArgument := by
      have hx : rxyMat (d q) theta phi b a = .error .invalidArgument := by
        unfold rxyMat
        dsimp only
        rw [if_neg (by omega)]
        unfold twoLevels
        rw [if_pos (Or.inl hlt)]
      simp [singleMat, tableDim_ok (by omega) h7, hx, paramList, getSize, getFlt, bind, Except.bind]
    unfold getGate readInstr
    rw [hg.target]
    change ((lift (singleMat "rxy" [d q] _) >>= _ : M _) Tables.empty) = _
    rw [hm]
    rfl

/-- C18 is violated for controls: on two qubits, X on line 1 with a control on line 0 at level 1. The tensor-network simulator leaves
the initial state unchanged, as it should, the decision-diagram simulator applies X. -/
theorem C18_controls_violated (H : Hashes) :
    ∃ g0 g arr v w, Gate.init [2, 2] "x" .single (.one 1) none = .ok g0 ∧ g0.control [0] [1] = .ok g ∧
      (⟨g, "x", [2], .none⟩ : PyGate).array = .ok arr ∧
      Tnsim.execute [2, 2] [(g, arr)] = .ok v ∧ Misim.execute H [2, 2] [⟨g, "x", [2], .none⟩] = .ok w ∧
      v[0]? = some 1 ∧ w[0]? = some 0 := by
  obtain ⟨A, hA, hr, hc, hent⟩ := xArray_ok 2
  have hpos : ∀ i : Fin 2, 0 < (fun _ : Fin 2 => 2) i := fun _ => by norm_num
  let z : Reg (fun _ : Fin 2 => 2) := fun _ => 0
  have hz : idx (fun _ : Fin 2 => 2) z = 0 := rfl
  have hsum : ∀ M : Matrix (Reg fun _ : Fin 2 => 2) (Reg fun _ : Fin 2 => 2) ℂ, (M *ᵥ zeroState fun _ : Fin 2 => 2) z = M z z := by
    intro M
    change ∑ y, M z y * zeroState (fun _ : Fin 2 => 2) y = _
    rw [Finset.sum_eq_single z]
    · rw [show zeroState (fun _ : Fin 2 => 2) z = (1 : ℂ) from if_pos fun _ => rfl, mul_one]
    · intro y _ hy
      rw [show zeroState (fun _ : Fin 2 => 2) y = (0 : ℂ) from if_neg fun h => hy (funext fun i => Fin.ext (h i)), mul_zero]
    · intro h; exact absurd (Finset.mem_univ _) h
  have hmade : Made (fun _ : Fin 2 => 2) ⟨[2, 2], "x", .single, .one 1, none, false, false⟩ (.one 1) [1] :=
    ⟨rfl, "x", _, 0, rfl, rfl⟩
  obtain ⟨arrs, Ms, w, h1, h2, h3, h4⟩ := misim_lists H (fun _ : Fin 2 => 2) hpos
    [⟨⟨[2, 2], "x", .single, .one 1, none, false, false⟩, "x", [2], .none⟩] (by
      intro g hg
      rw [List.mem_singleton] at hg
      subst hg
      exact .plain _ 1 "x" hmade le_rfl (by norm_num) (by simp))
  obtain ⟨A', l, hA', hl, rfl⟩ := List.forall₂_cons_left_iff.1 h1
  rw [List.forall₂_nil_left_iff] at hl
  subst hl
  obtain rfl : A = A' := Except.ok.inj (hA.symm.trans hA')
  obtain ⟨M, l, ⟨_, B, hB, _, _, hBM⟩, hl, rfl⟩ := List.forall₂_cons_left_iff.1 h2
  have hl := List.forall₂_nil_left_iff.1 hl
  subst hl
  obtain ⟨_, _, _, B', hB', _, _, hBM'⟩ := made_ok (fun _ : Fin 2 => 2) _ _ [1] hmade A (by simp) (by simp) (by rw [hr]; rfl) (by rw [hc]; rfl)
  obtain rfl : B = B' := Except.ok.inj (hB.symm.trans hB')
  obtain ⟨C, hC, c1, c2, hCe⟩ := C13_controlled_line0_partial (α := ℂ) (n := 1) (fun _ => 2)
      ⟨[2, 2], "x", .two, .one 1, some ⟨[0], [1]⟩, false, false⟩ 1 [0] (fun _ => 1) A rfl rfl rfl (by decide) (by decide) (by decide) hr hc
  obtain ⟨v, hv, hvl⟩ := C15_execute (fun _ : Fin 2 => 2) (by norm_num) hpos
    [(⟨[2, 2], "x", .two, .one 1, some ⟨[0], [1]⟩, false, false⟩, A)] [_]
    (.cons ⟨⟨[0, 1], rfl, rfl, by decide, by decide, .inl rfl, by
      constructor
      · intro h; cases h
      · rintro ⟨m, ⟨a, ha, h1⟩, ⟨b, hb, h2⟩, h3⟩
        have ha' : a = 0 ∨ a = 1 := by simpa [Gate.controlLines, Target.lines] using ha
        have hb' : b = 0 ∨ b = 1 := by simpa [Gate.controlLines, Target.lines] using hb
        omega⟩, C, hC, c1, c2, hCe⟩ .nil)
  refine ⟨_, _, A, v, w, rfl, rfl, hA, hv, ?_, ?_, ?_⟩
  · exact h3
  · have := hvl.entry z
    rw [hz] at this
    rw [this, List.reverse_singleton, List.prod_singleton, hsum]
    unfold controlled
    rw [if_neg]
    · simp
    · intro h
      exact absurd (h 0 (by simp)) (by decide)
  · have := h4.entry z
    rw [hz] at this
    rw [this, List.reverse_singleton, List.prod_singleton, hsum, ← hBM, hBM']
    congr 1
    rw [if_neg (by decide), embed_single]
    unfold embed1
    rw [if_pos fun _ _ => rfl]
    exact (hent 0 0 (by norm_num)).trans (if_neg (by decide))

end Qudits
