import Verif.Props.CompilerProps
import Verif.Props.SmallDevices
/-
C73 for circuits: `compile_O0` and `compile_O1` on backends whose devices have more levels than the lines.
-/
namespace Qudits
open Spec Matrix LGraph Compiler LocalQR
open scoped Matrix.Norms.L2Operator

theorem qrError_mono {m M : Nat} (h : m ≤ M) : qrError m 1e-8 1e-4 ≤ qrError M 1e-8 1e-4 := by
  unfold qrError
  have : ((m * (m - 1) / 2 : Nat) : ℝ) ≤ ((M * (M - 1) / 2 : Nat) : ℝ) :=
    Nat.cast_le.2 (Nat.div_le_div_right (Nat.mul_le_mul h (Nat.sub_le_sub_right h 1)))
  gcongr

/-- the placement of the first levels, as it is read -/
theorem levelList_low {d D : Nat} (hd : d ≤ D) {LP : Equiv.Perm (Fin D)} {lp : Equiv.Perm (Fin d)}
    (h : ∀ (i : Fin d) (j : Fin D), (j : Nat) = i → (LP j : Nat) = lp i) : EntQR.levelList (placementList LP) d = placementList lp := by
  obtain ⟨k, rfl⟩ := Nat.exists_eq_add_of_le hd
  have e : placementList LP = placementList lp ++ List.ofFn fun i : Fin k => (((LP (Fin.natAdd d i) : Fin (d + k)) : Nat) : Int) := by
    unfold placementList
    rw [List.ofFn_add]
    congr 1
    congr 1
    funext i
    exact congrArg _ (h i _ rfl)
  rw [e]
  unfold EntQR.levelList
  rw [List.filter_append]
  have h1 : (placementList lp).filter (fun k => decide (k < (d : Int))) = placementList lp := by
    refine List.filter_eq_self.2 fun k hk => ?_
    unfold placementList at hk
    obtain ⟨i, rfl⟩ := List.mem_ofFn.1 hk
    have := (lp i).isLt
    simp only [decide_eq_true_eq]
    omega
  have h2 : (List.ofFn fun i : Fin k => (((LP (Fin.natAdd d i) : Fin (d + k)) : Nat) : Int)).filter (fun k => decide (k < (d : Int))) = [] := by
    refine List.filter_eq_nil_iff.2 fun x hx => ?_
    obtain ⟨i, rfl⟩ := List.mem_ofFn.1 hx
    simp only [decide_eq_true_eq]
    intro hlt
    have hlt : (LP (Fin.natAdd d i) : Nat) < d := by omega
    have := h (lp.symm ⟨_, hlt⟩) (Fin.castAdd k (lp.symm ⟨_, hlt⟩)) rfl
    rw [Equiv.apply_symm_apply] at this
    have := LP.injective (Fin.ext this)
    have := congrArg Fin.val this
    simp at this
    have := (lp.symm ⟨_, hlt⟩).isLt
    omega
  rw [h1, h2, List.append_nil]

section
variable {n : Nat} {d D : Fin n → Nat} {lp : ∀ i, Equiv.Perm (Fin (d i))} {LP : ∀ i, Equiv.Perm (Fin (D i))}
  {sem : Op (Arr2 ℂ) → Matrix (Reg d) (Reg d) ℂ} {sp : PathFinder} {rnd : ℝ → ℝ} {rho : ℝ} {E : Prop} {other : Nat → Other}

/-- the devices keep the first levels among themselves -/
def Below' (d D : Fin n → Nat) (lp : ∀ i, Equiv.Perm (Fin (d i))) (LP : ∀ i, Equiv.Perm (Fin (D i))) : Prop :=
  ∀ i, d i ≤ D i ∧ ∀ (k : Fin (d i)) (m : Fin (D i)), (m : Nat) = k → (LP i m : Nat) = lp i k

theorem roomy_split {b : Graphs} (h : RoomyBackend d D lp b) : ∃ LP, Backend D LP b ∧ Below' d D lp LP := by
  choose g h1 h2 h3 using h
  choose h4 LP h5 h6 h7 using h2
  exact ⟨LP, fun i => ⟨g i, h1 i, h5 i, h3 i, h6 i⟩, fun i => ⟨h4 i, h7 i⟩⟩

theorem roomy_join {b : Graphs} (h : Backend D LP b) (hl : Below' d D lp LP) : RoomyBackend d D lp b := by
  intro i
  obtain ⟨g, h1, h2, h3, h4⟩ := h i
  exact ⟨g, h1, ⟨(hl i).1, LP i, h2, h4, (hl i).2⟩, h3⟩

theorem roomy_reads {b0 b : Graphs} (h : AllKept D LP b0 b) (hl : Below' d D lp LP) : ReadsPlaces d lp b := by
  intro i
  obtain ⟨_, g, _, h2, h3⟩ := h i
  exact ⟨g, h2, by rw [levelsOf_gen h3.dev h3.order, levelList_low (hl i).1 (hl i).2]⟩

/-- no path leaves a line -/
def StaysAll (d : Fin n → Nat) (sp : PathFinder) (b : Graphs) : Prop :=
  ∀ (i : Fin n) g, b[(i : Nat)]? = some (some g) → AlwaysStays (d i) sp g

theorem stays_same {m : Nat} {g g' : LGraph} (h : AlwaysStays m sp g) (hs : SameGraph g g') : AlwaysStays m sp g' :=
  fun g'' hw h1 h2 => h g'' hw (h1.trans hs.1) (h2.trans hs.2)

theorem roomy_pass {b0 b : Graphs} (hl : Below' d D lp LP) (hsp : FindsPaths sp) (hE : E ∨ StaysAll d sp b0) (hb : AllKept D LP b0 b) (i : Fin n)
    {u : Arr2 ℂ} (hu : UnitaryArr u (d i)) : ∃ g, b[(i : Nat)]? = some (some g) ∧
    ((E ∧ phyPassGate sp (i : Nat) (d i) u g = .error .assertionError) ∨
      ∃ l g', phyPassGate sp (i : Nat) (d i) u g = .ok (l, g') ∧ (∀ x ∈ l, OnLine (i : Nat) (d i) x) ∧ (∀ x ∈ l.map CInstr.one, Native d b0 x) ∧
        Near (D i * qrError (D i) 1e-8 1e-4) (circuitOp (PhasePass.lineOp (d i)) l) (relabelling (lp i) * u.toM (d i) * (relabelling (lp i))ᴴ) ∧
        AllKept D LP b0 (b.set i (some g')) ∧ circuitOp (PhasePass.lineOp (d i)) l ∈ unitaryGroup (Fin (d i)) ℂ) := by
  obtain ⟨g0, gr, h1, h2, h3⟩ := hb i
  refine ⟨gr, h2, (small_key' (lp := lp i) E (hl i).1 h3.dev h3.clean (hl i).2 hsp (hE.imp id fun h => stays_same (h i g0 h1) h3.same) (i : Nat) u hu).imp id ?_⟩
  rintro ⟨l, g', e1, e2, _, e4, e5, e6⟩
  refine ⟨l, g', e1, fun x hx => (e2 x hx).1, ?_, e4, hb.set h2 e5.1 e5.2 (phyPassGate_same e1), e6⟩
  intro x hx
  obtain ⟨y, hy, rfl⟩ := List.mem_map.1 hx
  exact ⟨i, g0, h1, (e2 y hy).1, (e2 y hy).2.2.imp h3.coupled id⟩

/-- `F b g` translates `g`, or raises AssertionError if `E`. -/
def Tries (E : Prop) (D : Fin n → Nat) (LP : ∀ i, Equiv.Perm (Fin (D i))) (d : Fin n → Nat) (lp : ∀ i, Equiv.Perm (Fin (d i)))
    (sem : Op (Arr2 ℂ) → Matrix (Reg d) (Reg d) ℂ) (b0 : Graphs)
    (F : Graphs → Op (Arr2 ℂ) → Except PyErr (List CInstr × Graphs)) (e : Op (Arr2 ℂ) → ℝ) (g : Op (Arr2 ℂ)) : Prop :=
  ∀ b, AllKept D LP b0 b → (E ∧ F b g = .error .assertionError) ∨ ∃ l b', F b g = .ok (l, b') ∧ AllKept D LP b0 b' ∧
    Translated d lp sem b0 (e g) (sem g) l

theorem tries_collect {b0 : Graphs} {F : Graphs → Op (Arr2 ℂ) → Except PyErr (List CInstr × Graphs)} {e : Op (Arr2 ℂ) → ℝ} (gs : List (Op (Arr2 ℂ)))
    (hg : ∀ g ∈ gs, Tries E D LP d lp sem b0 F e g) (b : Graphs) (hb : AllKept D LP b0 b) :
    (E ∧ collect F b gs = .error .assertionError) ∨ ∃ l b', collect F b gs = .ok (l, b') ∧ AllKept D LP b0 b' ∧
      Translated d lp sem b0 (gs.map e).sum (circuitOp sem gs) l := by
  induction gs generalizing b with
  | nil =>
    refine Or.inr ⟨[], b, rfl, hb, ?_⟩
    rw [circuitOp_nil]
    exact Translated.nil
  | cons g gs ih =>
    unfold collect
    simp only [bind, Except.bind, pure, Except.pure]
    rcases hg g (by simp) b hb with h | ⟨l, b1, h1, hb1, h2⟩
    · rw [h.2]; exact Or.inl ⟨h.1, rfl⟩
    · rw [h1]
      simp only
      rcases ih (fun x hx => hg x (List.mem_cons_of_mem _ hx)) b1 hb1 with k | ⟨m, b2, k1, hb2, k2⟩
      · rw [k.2]; exact Or.inl ⟨k.1, rfl⟩
      · rw [k1]
        refine Or.inr ⟨l ++ m, b2, rfl, hb2, ?_⟩
        rw [List.map_cons, List.sum_cons, circuitOp_cons]
        exact h2.append k2

variable {M : Nat}

theorem tries_line {b0 : Graphs} (hl : Below' d D lp LP) (hsem : Semantics d sem) (hsp : FindsPaths sp) (hE : E ∨ StaysAll d sp b0) (hM : ∀ i, D i ≤ M)
    {g : Op (Arr2 ℂ)} (hg : OneLine d g) : Tries E D LP d lp sem b0 (fun b g => phyLocQR sp b g) (gateError d (roomyError M) other rho) g := by
  intro b hb
  obtain ⟨hs, i, ht, hu⟩ := hg
  obtain ⟨gr, h2, h⟩ := roomy_pass hl hsp hE hb i hu
  have hrun : phyLocQR sp b g = (do
      let (l, gr') ← phyPassGate sp (i : Nat) (d i) g.body gr
      pure (l.map .one, b.set i (some gr'))) := by
    unfold phyLocQR onLine withGraph theGraph
    rw [ht]
    simp only [bind, Except.bind, pure, Except.pure]
    rw [graphAt_ok h2, hu.1]
    simp only
    cases phyPassGate sp (i : Nat) (d i) g.body gr <;> rfl
  rcases h with h | ⟨l, gr', e1, e2, e3, e4, e5, e6⟩
  · refine Or.inl ⟨h.1, ?_⟩
    show phyLocQR sp b g = _
    rw [hrun, h.2]; rfl
  · refine Or.inr ⟨l.map .one, b.set i (some gr'), ?_, e5, ?_, ?_, ⟨1, norm_one, ?_⟩, e3⟩
    · show phyLocQR sp b g = _
      rw [hrun, e1]; rfl
    · rw [circuitOp_one e2]
      exact embed1_mem_unitary (X := LvOf d) i _ e6
    · rw [hsem.1 g i hs ht]; exact embed1_mem_unitary (X := LvOf d) i _ hu.2.2
    · rw [circuitOp_one e2, one_smul, hsem.1 g i hs ht, placed_embed1]
      refine (near_embed1 (mul_nonneg (Nat.cast_nonneg _) (lineError_nonneg _)) e4).trans ?_
      unfold gateError
      rw [ht]
      simp only
      rw [lineOf_fin]
      unfold roomyError
      have := qrError_mono (hM i)
      have := lineError_nonneg (D i)
      have hM' : ((D i : Nat) : ℝ) ≤ M := Nat.cast_le.2 (hM i)
      simp only
      gcongr

theorem tries_pair {b0 : Graphs} (hl : Below' d D lp LP) (hsp : FindsPaths sp) (hE : E ∨ StaysAll d sp b0) (hrnd : ∀ x, |rnd x - x| ≤ rho)
    (line : Nat → ℝ) {g : Op (Arr2 ℂ)} (hg : GoodCEx d lp other sem g ∨ GoodPair d lp other sem g) :
    Tries E D LP d lp sem b0 (fun b g => phyEnt sp rnd (other g.oid) b g) (gateError d line other rho) g := by
  intro b hb
  rcases hg with hg | hg
  · obtain ⟨l, h1, h2⟩ := phyEnt_cex (b0 := b0) (sp := sp) (rnd := rnd) (roomy_reads hb hl) hg
    refine Or.inr ⟨l, b, h1, hb, ?_⟩
    obtain ⟨_, _, i, j, a, c, k, phi, _, ht, _, hc, _⟩ := hg
    unfold gateError
    rw [ht, hc]
    exact h2
  · refine (phyEnt_pair_gen (b0 := b0) (E := E) (I := AllKept D LP b0) ?_ hrnd hb (roomy_reads hb hl) hg).imp id ?_
    · intro b hb i u hu
      obtain ⟨gr, h2, h⟩ := roomy_pass hl hsp hE hb i hu
      have hrun : compilePerm sp (i : Nat) (d i) u b = (do
          let (_, gr') ← phyPassGate sp (i : Nat) (d i) u gr
          pure (b.set i (some gr'))) := by
        unfold compilePerm withGraph theGraph
        simp only [bind, Except.bind, pure, Except.pure]
        rw [graphAt_ok h2]
        simp only
        cases phyPassGate sp (i : Nat) (d i) u gr <;> rfl
      rw [hrun]
      rcases h with h | ⟨l, gr', e1, _, _, _, e5, _⟩
      · rw [h.2]; exact Or.inl ⟨h.1, rfl⟩
      · rw [e1]; exact Or.inr ⟨_, rfl, e5⟩
    · rintro ⟨l, b', h1, hb', h2⟩
      refine ⟨l, b', h1, hb', ?_⟩
      obtain ⟨_, h3, i, j, _, _, _, _, _, ht, _, hc, _⟩ := hg
      unfold gateError
      rw [ht, hc, h3]
      exact h2

theorem roomy_O0 (hsem : Semantics d sem) (hsp : FindsPaths sp) (hrnd : ∀ x, |rnd x - x| ≤ rho) (fuel : Nat) {b : Graphs}
    (hb : RoomyBackend d D lp b) (hM : ∀ i, D i ≤ M) (hE : E ∨ StaysAll d sp b) (gs : List (Op (Arr2 ℂ)))
    (hg : ∀ g ∈ gs, OneLine d g ∨ GoodCEx d lp other sem g ∨ GoodPair d lp other sem g ∨ GoodMulti d lp other sem g) :
    (E ∧ compileO0 fuel sp rnd other b ⟨List.ofFn d, gs⟩ = .error .assertionError) ∨
    ∃ l b', compileO0 fuel sp rnd other b ⟨List.ofFn d, gs⟩ = .ok ⟨l, List.ofFn fun i => placementList (lp i), b'⟩ ∧ RoomyBackend d D lp b' ∧
      Implements d lp sem b (gs.map (gateError d (roomyError M) other rho)).sum (circuitOp sem gs) l := by
  obtain ⟨LP, hB, hl⟩ := roomy_split hb
  have key : ∀ g ∈ gs, Tries E D LP d lp sem b (fun b g => compileGate (transpileGate fuel sp rnd other) other ⟨some .phyLocQR, some .phyEntQR, none⟩ b g)
      (gateError d (roomyError M) other rho) g := by
    intro g hgs b1 hb1
    rcases hg g hgs with h | h | h | h
    · have k := tries_line (other := other) (rho := rho) hl hsem hsp hE hM h b1 hb1
      simpa only [compileGate, typeOf, h.1, if_true, Slots.get, transpileGate] using k
    · have k := tries_pair hl hsp hE hrnd (roomyError M) (Or.inl h) b1 hb1
      simpa only [compileGate, typeOf, h.1, h.2.1, if_true, Slots.get, transpileGate, Bool.false_eq_true, if_false] using k
    · have k := tries_pair hl hsp hE hrnd (roomyError M) (Or.inr h) b1 hb1
      simpa only [compileGate, typeOf, h.1, h.2.1, if_true, Slots.get, transpileGate, Bool.false_eq_true, if_false] using k
    · obtain ⟨qs, hqs⟩ := h.2.2.1
      refine Or.inr ⟨[.kept g], b1, ?_, hb1, ?_⟩
      · simp only [compileGate, typeOf, h.1, h.2.1, Slots.get, Bool.false_eq_true, if_false]
      · have := kept_multi (b0 := b) h (by rw [hqs]; exact hsem.2 g qs h.1 hqs)
        refine this.mono ?_
        unfold gateError
        rw [hqs, h.2.1]
        simp only
        cases (other g.oid).cex <;> simp
  have e : slots ["PhyLocQRPass", "PhyEntQRCEXPass"] = .ok ⟨some .phyLocQR, some .phyEntQR, none⟩ := rfl
  unfold compileO0 compile compileWith
  rw [e]
  simp only [bind, Except.bind]
  rcases tries_collect gs key b (AllKept.start hB) with h | ⟨l, b', h1, h2, h3⟩
  · refine Or.inl ⟨h.1, ?_⟩
    have h' : collect (compileGate (transpileGate fuel sp rnd other) other ⟨some .phyLocQR, some .phyEntQR, none⟩) b gs = .error .assertionError := h.2
    rw [h']
  · refine Or.inr ⟨l, b', ?_, roomy_join h2.backend hl, h3.implements⟩
    have h1' : collect (compileGate (transpileGate fuel sp rnd other) other ⟨some .phyLocQR, some .phyEntQR, none⟩) b gs = .ok (l, b') := h1
    rw [h1']
    simp only
    rw [finish_reads (roomy_reads h2 hl)]
    simp only
    exact finish_reads (roomy_reads h2 hl) l

theorem roomy_O1 (hsem : Semantics d sem) (hsp : FindsPaths sp) (hrnd : ∀ x, |rnd x - x| ≤ rho) {b : Graphs}
    (hb : RoomyBackend d D lp b) (hM : ∀ i, D i ≤ M) (hE : E ∨ StaysAll d sp b) (gs : List (Op (Arr2 ℂ))) (hid : (gs.map Op.oid).Nodup) (next : Nat)
    (hnext : ∀ g ∈ gs, g.oid < next) (hg : ∀ g ∈ gs, OneLine d g ∨ GoodCEx d lp other sem g ∨ GoodPair d lp other sem g) :
    (E ∧ compileO1 sp rnd other next b ⟨List.ofFn d, gs⟩ = .error .assertionError) ∨
    ∃ gs' l b', Resynth.transpile (List.ofFn d) next gs = .ok gs' ∧
      compileO1 sp rnd other next b ⟨List.ofFn d, gs⟩ = .ok ⟨l, List.ofFn fun i => placementList (lp i), b'⟩ ∧ RoomyBackend d D lp b' ∧
      Implements d lp sem b (gs'.map (gateError d (roomyError M) other rho)).sum (circuitOp sem gs) l := by
  obtain ⟨LP, hB, hl⟩ := roomy_split hb
  obtain ⟨gs', h1, h3, h2, hg'⟩ := merged_good (lp := lp) (other := other) (sem := sem) gs hid next hnext hg
  have key : ∀ g ∈ gs', Tries E D LP d lp sem b (gateO1 sp rnd other) (gateError d (roomyError M) other rho) g := by
    intro g hgs b1 hb1
    have hp : (GoodCEx d lp other sem g ∨ GoodPair d lp other sem g) → g.single = false := fun h => h.elim (·.1) (·.1)
    rcases hg' g hgs with h | h
    · have k := tries_line (other := other) (rho := rho) hl hsem hsp hE hM h b1 hb1
      simpa only [gateO1, h.1, if_true] using k
    · have k := tries_pair hl hsp hE hrnd (roomyError M) h b1 hb1
      simpa only [gateO1, hp h, Bool.false_eq_true, if_false] using k
  unfold compileO1
  simp only [bind, Except.bind]
  rw [h1]
  simp only
  rcases tries_collect gs' key b (AllKept.start hB) with h | ⟨l, b', k1, k2, k3⟩
  · exact Or.inl ⟨h.1, by rw [h.2]⟩
  · rw [k1]
    refine Or.inr ⟨gs', l, b', rfl, finish_reads (roomy_reads k2 hl) l, roomy_join k2.backend hl, ?_⟩
    rw [← h2 sem hsem]
    exact k3.implements

/-- `compile_O0` on a backend whose devices have at least as many levels as the lines, for the circuits of C72: it raises AssertionError, or the
compiled circuit is right. Missing: that it does not raise (see below), and the gates that are missing in C72. -/
theorem C73_O0_partial (hsem : Semantics d sem) (hsp : FindsPaths sp) (hrnd : ∀ x, |rnd x - x| ≤ rho) (fuel : Nat) {b : Graphs}
    (hb : RoomyBackend d D lp b) (hM : ∀ i, D i ≤ M) (gs : List (Op (Arr2 ℂ)))
    (hg : ∀ g ∈ gs, OneLine d g ∨ GoodCEx d lp other sem g ∨ GoodPair d lp other sem g ∨ GoodMulti d lp other sem g) :
    compileO0 fuel sp rnd other b ⟨List.ofFn d, gs⟩ = .error .assertionError ∨
    ∃ l b', compileO0 fuel sp rnd other b ⟨List.ofFn d, gs⟩ = .ok ⟨l, List.ofFn fun i => placementList (lp i), b'⟩ ∧ RoomyBackend d D lp b' ∧
      Implements d lp sem b (gs.map (gateError d (roomyError M) other rho)).sum (circuitOp sem gs) l :=
  (roomy_O0 hsem hsp hrnd fuel hb hM (Or.inl trivial) gs hg).imp And.right id

/-- It does not raise if the paths between neighbouring levels of the lines stay on the lines. -/
theorem C73_O0_stays (hsem : Semantics d sem) (hsp : FindsPaths sp) (hrnd : ∀ x, |rnd x - x| ≤ rho) (fuel : Nat) {b : Graphs}
    (hb : RoomyBackend d D lp b) (hM : ∀ i, D i ≤ M) (hst : ∀ (i : Fin n) g, b[(i : Nat)]? = some (some g) → AlwaysStays (d i) sp g)
    (gs : List (Op (Arr2 ℂ)))
    (hg : ∀ g ∈ gs, OneLine d g ∨ GoodCEx d lp other sem g ∨ GoodPair d lp other sem g ∨ GoodMulti d lp other sem g) :
    ∃ l b', compileO0 fuel sp rnd other b ⟨List.ofFn d, gs⟩ = .ok ⟨l, List.ofFn fun i => placementList (lp i), b'⟩ ∧ RoomyBackend d D lp b' ∧
      Implements d lp sem b (gs.map (gateError d (roomyError M) other rho)).sum (circuitOp sem gs) l :=
  (roomy_O0 (E := False) hsem hsp hrnd fuel hb hM (Or.inr hst) gs hg).resolve_left fun h => h.1

/-- `compile_O1` likewise; the error is that of the gates that are left after merging. -/
theorem C73_O1_partial (hsem : Semantics d sem) (hsp : FindsPaths sp) (hrnd : ∀ x, |rnd x - x| ≤ rho) {b : Graphs}
    (hb : RoomyBackend d D lp b) (hM : ∀ i, D i ≤ M) (gs : List (Op (Arr2 ℂ))) (hid : (gs.map Op.oid).Nodup) (next : Nat)
    (hnext : ∀ g ∈ gs, g.oid < next) (hg : ∀ g ∈ gs, OneLine d g ∨ GoodCEx d lp other sem g ∨ GoodPair d lp other sem g) :
    compileO1 sp rnd other next b ⟨List.ofFn d, gs⟩ = .error .assertionError ∨
    ∃ gs' l b', Resynth.transpile (List.ofFn d) next gs = .ok gs' ∧
      compileO1 sp rnd other next b ⟨List.ofFn d, gs⟩ = .ok ⟨l, List.ofFn fun i => placementList (lp i), b'⟩ ∧ RoomyBackend d D lp b' ∧
      Implements d lp sem b (gs'.map (gateError d (roomyError M) other rho)).sum (circuitOp sem gs) l :=
  (roomy_O1 hsem hsp hrnd hb hM (Or.inl trivial) gs hid next hnext hg).imp And.right id

theorem C73_O1_stays (hsem : Semantics d sem) (hsp : FindsPaths sp) (hrnd : ∀ x, |rnd x - x| ≤ rho) {b : Graphs}
    (hb : RoomyBackend d D lp b) (hM : ∀ i, D i ≤ M) (hst : ∀ (i : Fin n) g, b[(i : Nat)]? = some (some g) → AlwaysStays (d i) sp g)
    (gs : List (Op (Arr2 ℂ))) (hid : (gs.map Op.oid).Nodup) (next : Nat)
    (hnext : ∀ g ∈ gs, g.oid < next) (hg : ∀ g ∈ gs, OneLine d g ∨ GoodCEx d lp other sem g ∨ GoodPair d lp other sem g) :
    ∃ gs' l b', Resynth.transpile (List.ofFn d) next gs = .ok gs' ∧
      compileO1 sp rnd other next b ⟨List.ofFn d, gs⟩ = .ok ⟨l, List.ofFn fun i => placementList (lp i), b'⟩ ∧ RoomyBackend d D lp b' ∧
      Implements d lp sem b (gs'.map (gateError d (roomyError M) other rho)).sum (circuitOp sem gs) l :=
  (roomy_O1 (E := False) hsem hsp hrnd hb hM (Or.inr hst) gs hid next hnext hg).resolve_left fun h => h.1

end
/-! ### circuits of qubits on `Innsbruck01`, of qutrits on the six-level backends -/

theorem innsbruck_roomy : RoomyBackend (n := 2) (fun _ => 2) (fun _ => 3) (fun _ => 1) innsbruck01 := by
  intro i
  refine ⟨innsbruck, ?_, roomy_innsbruck (show 2 ≤ 3 by decide), C74_innsbruck.2.1⟩
  fin_cases i <;> rfl

theorem six_roomy (n : Nat) (d : Fin n → Nat) (hd : ∀ i, d i ≤ 6) : RoomyBackend d (fun _ => 6) (fun _ => 1) (sixTraps n) := by
  intro i
  refine ⟨sixTrap, ?_, roomy_six (hd i), C74_six.2.1⟩
  simp [sixTraps]

theorem innsbruck_stays_all {sp : PathFinder} (hsp : FindsPaths sp) (i : Fin 2) (g : LGraph) (h : innsbruck01[(i : Nat)]? = some (some g)) :
    AlwaysStays 2 sp g := by
  have : innsbruck01[(i : Nat)]? = some (some innsbruck) := by fin_cases i <;> rfl
  rw [this] at h
  cases h
  exact innsbruck_stays hsp

/-- Every circuit of gates on one qubit and on two qubits (lower line first) is compiled for `Innsbruck01`. -/
example {sem : Op (Arr2 ℂ) → Matrix (Reg (n := 2) fun _ => 2) (Reg (n := 2) fun _ => 2) ℂ} {sp : PathFinder} {rnd : ℝ → ℝ} {rho : ℝ} {other : Nat → Other}
    (hsem : Semantics (n := 2) (fun _ => 2) sem) (hsp : FindsPaths sp) (hrnd : ∀ x, |rnd x - x| ≤ rho) (fuel : Nat) (gs : List (Op (Arr2 ℂ)))
    (hg : ∀ g ∈ gs, OneLine (n := 2) (fun _ => 2) g ∨ GoodPair (n := 2) (fun _ => 2) (fun _ => 1) other sem g) :
    ∃ l b', compileO0 fuel sp rnd other innsbruck01 ⟨[2, 2], gs⟩ = .ok ⟨l, [[0, 1], [0, 1]], b'⟩ ∧
      Implements (n := 2) (fun _ => 2) (fun _ => 1) sem innsbruck01 (gs.map (gateError (n := 2) (fun _ => 2) (roomyError 3) other rho)).sum (circuitOp sem gs) l := by
  obtain ⟨l, b', h1, _, h2⟩ := C73_O0_stays (M := 3) hsem hsp hrnd fuel innsbruck_roomy (fun _ => le_rfl) (innsbruck_stays_all hsp) gs
    fun g h => (hg g h).elim Or.inl fun h => Or.inr (Or.inr (Or.inl h))
  exact ⟨l, b', h1, h2⟩

/-- Circuits of qutrits on `FakeIonTraps2Six`, as in the tests of the repository: an AssertionError or the right circuit. -/
example {sem : Op (Arr2 ℂ) → Matrix (Reg (n := 2) fun _ => 3) (Reg (n := 2) fun _ => 3) ℂ} {sp : PathFinder} {rnd : ℝ → ℝ} {rho : ℝ} {other : Nat → Other}
    (hsem : Semantics (n := 2) (fun _ => 3) sem) (hsp : FindsPaths sp) (hrnd : ∀ x, |rnd x - x| ≤ rho) (fuel : Nat) (gs : List (Op (Arr2 ℂ)))
    (hg : ∀ g ∈ gs, OneLine (n := 2) (fun _ => 3) g ∨ GoodCEx (n := 2) (fun _ => 3) (fun _ => 1) other sem g) :
    compileO0 fuel sp rnd other (sixTraps 2) ⟨[3, 3], gs⟩ = .error .assertionError ∨
    ∃ l b', compileO0 fuel sp rnd other (sixTraps 2) ⟨[3, 3], gs⟩ = .ok ⟨l, [[0, 1, 2], [0, 1, 2]], b'⟩ ∧
      Implements (n := 2) (fun _ => 3) (fun _ => 1) sem (sixTraps 2) (gs.map (gateError (n := 2) (fun _ => 3) (roomyError 6) other rho)).sum (circuitOp sem gs) l := by
  refine (C73_O0_partial (M := 6) hsem hsp hrnd fuel (six_roomy 2 (fun _ => 3) fun _ => by decide) (fun _ => le_rfl) gs
    fun g h => (hg g h).elim Or.inl fun h => Or.inr (Or.inl h)).imp id ?_
  rintro ⟨l, b', h1, _, h2⟩
  exact ⟨l, b', h1, h2⟩

end Qudits
