import Verif.Spec.PassSpec
import Verif.Props.CompilerViolations
/-
C78: `compile` with the passes that the user names.
-/
namespace Qudits
open Spec Matrix LGraph Compiler LocalQR
open scoped Matrix.Norms.L2Operator

variable {n : Nat} {d : Fin n → Nat} {lp : ∀ i, Equiv.Perm (Fin (d i))} {sem : Op (Arr2 ℂ) → Matrix (Reg d) (Reg d) ℂ} {sp : PathFinder} {rnd : ℝ → ℝ}
  {rho : ℝ} {other : Nat → Other}

theorem kept_good {b0 : Graphs} {g : Op (Arr2 ℂ)} (hg : GoodKept d lp sem g) (ha : ActsOn d g.target.lines (sem g)) :
    Translated d lp sem b0 0 (sem g) [.kept g] := by
  obtain ⟨h1, _, h3, h4⟩ := hg
  have e : circuitOp (instrOp d sem) [.kept g] = sem g := by
    rw [circuitOp_cons, circuitOp_nil, one_mul]; rfl
  refine ⟨by rw [e]; exact h3, h3, ⟨1, norm_one, ?_⟩, ?_⟩
  · obtain ⟨A, hA⟩ := ha
    rw [e, one_smul, hA, placed_embed, sub_self, norm_zero]
    intro i hi
    refine h4 i ?_
    simpa [lineSet, Touches] using hi
  · intro x hx
    rw [List.mem_singleton] at hx
    subst hx
    exact h1

/-- What the logical pass makes of a gate on two qubits. -/
theorem logEnt_ok (hrnd : ∀ x, |rnd x - x| ≤ rho) {b : Graphs} {g : Op (Arr2 ℂ)} {i j : Fin n} (hg : QubitPair d other sem g i j) :
    ∃ l, logEnt rnd (other g.oid) b g = .ok (l, b) ∧ circuitOp (instrOp d sem) l ∈ unitaryGroup (Reg d) ℂ ∧ sem g ∈ unitaryGroup (Reg d) ℂ ∧
      (∃ z : ℂ, ‖z‖ = 1 ∧ ‖circuitOp (instrOp d sem) l - z • sem g‖ ≤ pairError rho) ∧ ∀ (b0 : Graphs), ∀ x ∈ l, Native d b0 x := by
  obtain ⟨_, _, hlt, hi, hj, ht, hdims, hu, hsem⟩ := hg
  obtain ⟨l, mu, e1, e2, e3, e4⟩ := C66_log_gate_partial (P := ⟨(i : Nat), (j : Nat), d i, d j⟩) (by simpa using hlt) hi hj rnd hrnd g.body hu
  have hrho : 0 ≤ rho := (abs_nonneg _).trans (hrnd 0)
  refine ⟨l.map .pair, ?_, ?_, ?_, ⟨Complex.exp (-Complex.I * mu), ?_, ?_⟩, ?_⟩
  · unfold logEnt
    rw [ht, hdims]
    simp only [bind, Except.bind, pure, Except.pure, itemAt, List.getElem?_cons_zero, List.getElem?_cons_succ]
    rw [e1]
  · rw [circuitOp_pair hlt.ne e2]; exact embedPair_unitary hlt.ne e4
  · rw [hsem]; exact embedPair_unitary hlt.ne hu.2.2
  · rw [show -Complex.I * mu = ((-mu : ℝ) : ℂ) * Complex.I by push_cast; ring]
    exact Complex.norm_exp_ofReal_mul_I _
  · rw [circuitOp_pair hlt.ne e2, hsem, ← embedPair_smul]
    have h4 : d i * d j = 4 := by rw [hi, hj]
    refine (near_embedPair hlt.ne (mul_nonneg (Nat.cast_nonneg _) (add_nonneg (lineError_nonneg _) hrho)) e3).trans ?_
    rw [h4]
    unfold pairError
    norm_num
  · intro b0 x hx
    obtain ⟨y, hy, rfl⟩ := List.mem_map.1 hx
    have h := e2 y hy
    cases y with
    | one k line dim b =>
      rcases h with ⟨rfl, rfl⟩ | ⟨rfl, rfl⟩
      · exact ⟨i, rfl, rfl⟩
      · exact ⟨j, rfl, rfl⟩
    | cex g q0 q1 d0 d1 b =>
      obtain ⟨_, rfl, rfl, rfl, rfl⟩ := h
      exact ⟨i, j, hlt.ne, rfl, rfl, rfl, rfl⟩

/-- `compile` with any list of names: if every gate is one that the pass it is given translates as it should be, the circuit that comes out does
what the circuit does, on the places of the levels, up to the errors of the passes. With too small a stack the search of the adaptive pass
fails instead. Missing: gates for which it does not hold (C35, C66, C67, C69, C70 and below). -/
theorem C78_compile_partial (hsem : Semantics d sem) (hsp : FindsShortest sp) (hrnd : ∀ x, |rnd x - x| ≤ rho) (names : List String)
    (hn : ∀ x ∈ names, x ∈ lineNames ∨ x ∈ pairNames ∨ x ∈ zNames) {b : Graphs} (hb : Backend d lp b) (gs : List (Op (Arr2 ℂ)))
    (hg : ∀ g ∈ gs, TranslatedBy d lp other sem b g (passFor names (typeOf other g))) :
    ∃ N l b', (∀ fuel, compile fuel sp rnd other b ⟨List.ofFn d, gs⟩ names = .ok ⟨l, List.ofFn fun i => placementList (lp i), b'⟩ ∨
        (fuel < N ∧ compile fuel sp rnd other b ⟨List.ofFn d, gs⟩ names = .error .recursion)) ∧ Backend d lp b' ∧
      Implements d lp sem b (gs.map fun g => passError d other rho g (passFor names (typeOf other g))).sum (circuitOp sem gs) l := by
  obtain ⟨s, hs1, hs2⟩ := slots_ok names hn
  have key : ∀ g ∈ gs, Translates d lp sem b (fun fuel b g => compileGate (transpileGate fuel sp rnd other) other s b g)
      (fun g => passError d other rho g (passFor names (typeOf other g))) g := by
    intro g hgs b1 hb1
    have h := hg g hgs
    have hrun : ∀ fuel b, compileGate (transpileGate fuel sp rnd other) other s b g = match passFor names (typeOf other g) with
        | some c => transpileGate fuel sp rnd other c b g
        | none => .ok ([.kept g], b) := by
      intro fuel b
      unfold compileGate
      rw [hs2]
      cases passFor names (typeOf other g) <;> rfl
    simp only [hrun]
    generalize passFor names (typeOf other g) = p at h
    match p, h with
    | some .phyLocQR, h =>
      obtain ⟨N, l, b', k⟩ := translates_line (other := other) (rho := rho) hsem hsp.finds h b1 hb1
      exact ⟨N, l, b', k⟩
    | some .phyLocAda, ⟨⟨hs, i, ht, hu⟩, h⟩ =>
      obtain ⟨hd, hn, hc⟩ := h i ht
      obtain ⟨N, l, b', k1, k2, k3⟩ := phyLocAda_ok hsp hb1 ht hu (hsem.1 g i hs ht) hc hd hn
      refine ⟨N, l, b', fun fuel => k1 fuel, k2, ?_⟩
      unfold passError gateError
      simp only [ht]
      rw [lineOf_fin]
      exact k3
    | some .phyEntQR, h =>
      obtain ⟨N, l, b', k⟩ := translates_pair hsp.finds hrnd lineError h b1 hb1
      exact ⟨N, l, b', k⟩
    | some .logEntQR, ⟨i, j, hq, hi, hj⟩ =>
      obtain ⟨l, k1, k2, k3, ⟨z, hz, hn⟩, k5⟩ := logEnt_ok (b := b1) hrnd hq
      refine ⟨0, l, b1, fun _ => Or.inl k1, hb1, k2, k3, ⟨z, hz, ?_⟩, k5 b⟩
      have hpl : placed lp (sem g) = sem g := by
        rw [hq.2.2.2.2.2.2.2.2]
        refine placed_embedPair _ _ ?_
        rw [hi, hj]
        ext x y
        simp [pairPlace]
      rw [hpl]
      exact hn
    | none, h =>
      obtain ⟨qs, hqs⟩ := h.2.1
      exact ⟨0, _, b1, fun _ => Or.inl rfl, hb1, kept_good h (by rw [hqs]; exact hsem.2 g qs h.1 hqs)⟩
  obtain ⟨N, l, b', h1, h2, h3⟩ := collect_ok gs key b (AllKept.start hb)
  refine ⟨N, l, b', fun fuel => ?_, h2.backend, h3.implements⟩
  unfold compile compileWith
  rw [hs1]
  simp only [bind, Except.bind]
  rcases h1 fuel with k | ⟨k, k'⟩
  · have k : collect (compileGate (transpileGate fuel sp rnd other) other s) b gs = .ok (l, b') := k
    rw [k]
    exact Or.inl (finish_ok h2.backend l)
  · have k' : collect (compileGate (transpileGate fuel sp rnd other) other s) b gs = .error .recursion := k'
    rw [k']
    exact Or.inr ⟨k, rfl⟩

/-! ### the logical passes -/

theorem logPassGate_same {q : Int} {m : Nat} {u : Arr2 ℂ} {g : LGraph} {r : List PInstr × LGraph}
    (h : logPassGate sp q m u g = .ok r) : SameGraph g r.2 := by
  obtain ⟨l, g'⟩ := r
  unfold logPassGate logQr execute at h
  simp only [bind, pure] at h
  obtain ⟨res, e, h⟩ := bind_ok h
  cases h
  simp only [Bool.false_eq_true, if_false, Bool.false_and] at e
  obtain ⟨s, e1, e⟩ := bind_ok e
  obtain ⟨st, e2, e⟩ := bind_ok e
  obtain ⟨out, e3, e⟩ := bind_ok e
  obtain ⟨g2, e4, e⟩ := bind_ok e
  cases e4
  cases e
  exact takePhases_same e1

/-- One graph for each line, its nodes in order; phases may be stored. -/
def Backend' (d : Fin n → Nat) (lp : ∀ i, Equiv.Perm (Fin (d i))) (b : Graphs) : Prop :=
  ∀ i : Fin n, ∃ g, b[(i : Nat)]? = some (some g) ∧ Device (d i) g (lp i) ∧ InOrder (d i) g

theorem Backend'.reads {b : Graphs} (h : Backend' d lp b) : ReadsPlaces d lp b := by
  intro i
  obtain ⟨g, h1, h2, h3⟩ := h i
  exact ⟨g, h1, levelsOf_ok h2 h3⟩

/-- What the logical pass makes of a gate on one line is its inverse. -/
theorem logLine_ok (hsem : Semantics d sem) (hsp : FindsPaths sp) {b : Graphs} (hb : Backend' d lp b) {g : Op (Arr2 ℂ)} (hg : OneLine d g) :
    ∃ l b', onLine (withGraph (logPassGate sp)) b g = .ok (l, b') ∧ Backend' d lp b' ∧ circuitOp (instrOp d sem) l ∈ unitaryGroup (Reg d) ℂ ∧
      (sem g)ᴴ ∈ unitaryGroup (Reg d) ℂ ∧ ‖circuitOp (instrOp d sem) l - (sem g)ᴴ‖ ≤ gateError d lineError other rho g := by
  obtain ⟨hs, i, ht, hu⟩ := hg
  obtain ⟨gr, h1, h2, h3⟩ := hb i
  obtain ⟨res, _, _, _, k1, _, _, _, _, _, _, _, _, _, k10, k11, k12, _⟩ :=
    C34_decomposition h2 hsp ((i : Nat) : Int) 1e-8 1e-4 (by norm_num) (by norm_num) g.body hu
  have hpass : logPassGate sp ((i : Nat) : Int) (d i) g.body gr = .ok (res.decomp, res.graph) := by
    unfold logPassGate
    rw [k1]
    rfl
  have hon := logPassGate_on hpass
  have hsame := logPassGate_same hpass
  have hg1 : sem g = embed1 (X := LvOf d) i (g.body.toM (d i)) := hsem.1 g i hs ht
  have hUu : sem g ∈ unitaryGroup (Reg d) ℂ := by rw [hg1]; exact embed1_mem_unitary (X := LvOf d) i _ hu.2.2
  refine ⟨res.decomp.map .one, b.set i (some res.graph), ?_, ?_, ?_, Unitary.star_mem hUu, ?_⟩
  · unfold onLine withGraph theGraph
    rw [ht]
    simp only [bind, Except.bind, pure, Except.pure]
    rw [graphAt_ok h1, hu.1]
    simp only
    rw [hpass]
    rfl
  · intro j
    by_cases hij : j = i
    · subst hij
      have hl : (j : Nat) < b.length := (List.getElem?_eq_some_iff.1 h1).1
      refine ⟨res.graph, by rw [List.getElem?_set_self hl], k12, ?_⟩
      unfold InOrder
      rw [hsame.1]
      exact h3
    · obtain ⟨gj, j1, j2, j3⟩ := hb j
      refine ⟨gj, ?_, j2, j3⟩
      rw [List.getElem?_set_ne (fun e => hij (Fin.ext e.symm))]
      exact j1
  · rw [circuitOp_one hon]
    exact embed1_mem_unitary (X := LvOf d) i _ k10
  · have hnear := near_inverse' _ _ hu.2.2 k11
    have e : (sem g)ᴴ = embed1 (X := LvOf d) i (g.body.toM (d i))ᴴ := by
      rw [hg1]
      exact embed1_conjTranspose (X := LvOf d) i _
    rw [circuitOp_one hon, e]
    unfold gateError
    simp only [ht]
    rw [lineOf_fin]
    exact near_embed1 (mul_nonneg (Nat.cast_nonneg _) (lineError_nonneg _)) hnear

theorem near_product {e1 e2 : ℝ} {A B C1 C2 : Matrix (Reg d) (Reg d) ℂ} {z w : ℂ} (hC2 : C2 ∈ unitaryGroup (Reg d) ℂ) (hA : A ∈ unitaryGroup (Reg d) ℂ)
    (hz : ‖z‖ = 1) (h1 : ‖C1 - z • A‖ ≤ e1) (h2 : ‖C2 - w • B‖ ≤ e2) : ‖C2 * C1 - (w * z) • (B * A)‖ ≤ e1 + e2 := by
  have e : C2 * C1 - (w * z) • (B * A) = C2 * (C1 - z • A) + (C2 - w • B) * (z • A) := by
    rw [mul_sub, sub_mul, smul_mul_smul_comm]; abel
  rw [e]
  refine (norm_add_le _ _).trans (add_le_add ?_ ?_)
  · rw [CStarRing.norm_mem_unitary_mul _ hC2]; exact h1
  · rw [mul_smul_comm, norm_smul, hz, one_mul, CStarRing.norm_mul_mem_unitary _ hA]; exact h2

/-- The two logical passes, on lines of any dimension with any placement, for circuits of gates on one line, on two qubits, and gates on more
lines: what comes out is the circuit with every gate on one line replaced by its inverse. -/
theorem C78_logical_inverse (hsem : Semantics d sem) (hsp : FindsPaths sp) (hrnd : ∀ x, |rnd x - x| ≤ rho) (fuel : Nat) {b : Graphs}
    (hb : Backend d lp b) (gs : List (Op (Arr2 ℂ))) (hg : ∀ g ∈ gs, LogicalGate d other sem g) :
    ∃ l b', compile fuel sp rnd other b ⟨List.ofFn d, gs⟩ ["LogLocQRPass", "LogEntQRCEXPass"] =
        .ok ⟨l, List.ofFn fun i => placementList (lp i), b'⟩ ∧ circuitOp (instrOp d sem) l ∈ unitaryGroup (Reg d) ℂ ∧
      ∃ z : ℂ, ‖z‖ = 1 ∧ ‖circuitOp (instrOp d sem) l - z • circuitOp (invertSingles sem) gs‖ ≤
        (gs.map fun g => passError d other rho g (passFor ["LogLocQRPass", "LogEntQRCEXPass"] (typeOf other g))).sum := by
  have p1 : passFor ["LogLocQRPass", "LogEntQRCEXPass"] .single = some .logLocQR := by decide
  have p2 : passFor ["LogLocQRPass", "LogEntQRCEXPass"] .two = some .logEntQR := by decide
  have p3 : passFor ["LogLocQRPass", "LogEntQRCEXPass"] .multi = none := rfl
  have hstart : Backend' d lp b := fun i => by
    obtain ⟨g, h1, h2, h3, _⟩ := hb i
    exact ⟨g, h1, h2, h3⟩
  have key : ∀ (gs : List (Op (Arr2 ℂ))) (b : Graphs), Backend' d lp b → (∀ g ∈ gs, LogicalGate d other sem g) →
      ∃ l b', collect (compileGate (transpileGate fuel sp rnd other) other ⟨some .logLocQR, some .logEntQR, none⟩) b gs = .ok (l, b') ∧
        Backend' d lp b' ∧ circuitOp (instrOp d sem) l ∈ unitaryGroup (Reg d) ℂ ∧ circuitOp (invertSingles sem) gs ∈ unitaryGroup (Reg d) ℂ ∧
        ∃ z : ℂ, ‖z‖ = 1 ∧ ‖circuitOp (instrOp d sem) l - z • circuitOp (invertSingles sem) gs‖ ≤
          (gs.map fun g => passError d other rho g (passFor ["LogLocQRPass", "LogEntQRCEXPass"] (typeOf other g))).sum := by
    intro gs
    induction gs with
    | nil =>
      intro b hb _
      refine ⟨[], b, rfl, hb, ?_, ?_, 1, norm_one, ?_⟩
      · rw [circuitOp_nil]; exact one_mem _
      · rw [circuitOp_nil]; exact one_mem _
      · rw [circuitOp_nil, circuitOp_nil, one_smul, sub_self, norm_zero]; simp
    | cons g gs ih =>
      intro b hb hg
      have hone : ∃ l b', compileGate (transpileGate fuel sp rnd other) other ⟨some .logLocQR, some .logEntQR, none⟩ b g = .ok (l, b') ∧
          Backend' d lp b' ∧ circuitOp (instrOp d sem) l ∈ unitaryGroup (Reg d) ℂ ∧ invertSingles sem g ∈ unitaryGroup (Reg d) ℂ ∧
          ∃ z : ℂ, ‖z‖ = 1 ∧ ‖circuitOp (instrOp d sem) l - z • invertSingles sem g‖ ≤
            passError d other rho g (passFor ["LogLocQRPass", "LogEntQRCEXPass"] (typeOf other g)) := by
        rcases hg g (by simp) with h | ⟨i, j, h⟩ | ⟨h1, h2, h3⟩
        · have hs := h.1
          obtain ⟨l, b', k1, k2, k3, k4, k5⟩ := logLine_ok (other := other) (rho := rho) hsem hsp hb h
          refine ⟨l, b', ?_, k2, k3, ?_, 1, norm_one, ?_⟩
          · simp only [compileGate, typeOf, hs, if_true, Slots.get, transpileGate]
            exact k1
          · unfold invertSingles; rw [if_pos hs]; exact k4
          · unfold invertSingles typeOf; rw [if_pos hs, if_pos hs, p1, one_smul]; exact k5
        · have hs := h.1
          have h2 := h.2.1
          obtain ⟨l, k1, k2, k3, ⟨z, hz, hn⟩, _⟩ := logEnt_ok (b := b) hrnd h
          refine ⟨l, b, ?_, hb, k2, ?_, z, hz, ?_⟩
          · simp only [compileGate, typeOf, hs, h2, if_true, Slots.get, transpileGate, Bool.false_eq_true, if_false]
            exact k1
          · unfold invertSingles; rw [hs]; simpa using k3
          · unfold invertSingles typeOf
            rw [hs, h2]
            simp only [Bool.false_eq_true, if_false, if_true]
            rw [p2]
            exact hn
        · refine ⟨[.kept g], b, ?_, hb, ?_, ?_, 1, norm_one, ?_⟩
          · simp only [compileGate, typeOf, h1, h2, Slots.get, Bool.false_eq_true, if_false]
          · rw [circuitOp_cons, circuitOp_nil, one_mul]; exact h3
          · unfold invertSingles; rw [h1]; simpa using h3
          · unfold invertSingles typeOf
            rw [h1, h2]
            simp only [Bool.false_eq_true, if_false]
            rw [p3, circuitOp_cons, circuitOp_nil, one_mul, one_smul]
            change ‖sem g - sem g‖ ≤ 0
            rw [sub_self, norm_zero]
      obtain ⟨l, b1, k1, k2, k3, k4, z, hz, k5⟩ := hone
      obtain ⟨m, b2, j1, j2, j3, j4, w, hw, j5⟩ := ih b1 k2 fun x hx => hg x (List.mem_cons_of_mem _ hx)
      refine ⟨l ++ m, b2, ?_, j2, ?_, ?_, w * z, by rw [norm_mul, hz, hw, one_mul], ?_⟩
      · unfold collect
        simp only [bind, Except.bind, pure, Except.pure]
        rw [k1]
        simp only
        rw [j1]
      · rw [circuitOp_append]; exact mul_mem j3 k3
      · rw [circuitOp_cons]; exact mul_mem j4 k4
      · rw [circuitOp_append, circuitOp_cons, List.map_cons, List.sum_cons]
        exact near_product j3 k4 hz k5 j5
  obtain ⟨l, b', h1, h2, h3, _, h5⟩ := key gs b hstart hg
  refine ⟨l, b', ?_, h3, h5⟩
  have e : slots ["LogLocQRPass", "LogEntQRCEXPass"] = .ok ⟨some .logLocQR, some .logEntQR, none⟩ := rfl
  unfold compile compileWith
  rw [e]
  simp only [bind, Except.bind]
  rw [h1]
  exact finish_reads h2.reads l

/-- The logical passes do not keep the circuit: the circuit of the cyclic shift of a qutrit becomes one that is far from it, whatever global phase is
allowed. -/
theorem C78_logical_violated (hsp : FindsPaths sp) (hrnd : ∀ x, |rnd x - x| ≤ rho) (fuel : Nat)
    {sem : Op (Arr2 ℂ) → Matrix (Reg fun _ : Fin 1 => 3) (Reg fun _ : Fin 1 => 3) ℂ} (hsem : Semantics (fun _ : Fin 1 => 3) sem) :
    ∃ u l b', xArray 3 = .ok u ∧
      compile fuel sp rnd other [some rowDevice] ⟨[3], [⟨0, true, .one 0, u⟩]⟩ ["LogLocQRPass", "LogEntQRCEXPass"] = .ok ⟨l, [[1, 0, 2]], b'⟩ ∧
      ¬ ∃ z : ℂ, ‖z‖ = 1 ∧ ‖circuitOp (instrOp (fun _ : Fin 1 => 3) sem) l - z • circuitOp sem [⟨0, true, .one 0, u⟩]‖ ≤ 1 / 2 := by
  obtain ⟨u, h1, h2⟩ := C06_x 3
  obtain ⟨u', k1, _, _, k4⟩ := xArray_ok 3
  rw [h1] at k1
  cases k1
  have hb : Backend (fun _ : Fin 1 => 3) (fun _ => Equiv.swap 0 1) [some rowDevice] := by
    intro i
    have : (i : Nat) = 0 := by omega
    refine ⟨rowDevice, by rw [this]; rfl, rowDevice_ok.1, rfl, rowDevice_ok.2⟩
  obtain ⟨l, b', c1, c2, w, hw, c3⟩ := C78_logical_inverse (other := other) hsem hsp hrnd fuel hb [⟨0, true, .one 0, u⟩]
    (by intro g hg; rw [List.mem_singleton] at hg; subst hg; exact Or.inl ⟨rfl, 0, rfl, h2⟩)
  refine ⟨u, l, b', h1, c1, ?_⟩
  rintro ⟨z, hz, hn⟩
  have hs : sem ⟨0, true, .one 0, u⟩ = embed1 (X := LvOf fun _ : Fin 1 => 3) 0 (u.toM 3) := hsem.1 _ 0 rfl rfl
  have p1 : passFor ["LogLocQRPass", "LogEntQRCEXPass"] (typeOf other ⟨0, true, .one 0, u⟩) = some .logLocQR := rfl
  have e0 : lineOf 1 0 = some 0 := rfl
  rw [List.map_singleton, List.sum_singleton, p1] at c3
  simp only [passError, gateError, e0] at c3
  rw [circuitOp_cons, circuitOp_nil, one_mul] at c3 hn
  have f1 := (norm_entry_le _ (fun _ => (1 : Fin 3)) (fun _ => (0 : Fin 3))).trans hn
  have f2 := (norm_entry_le _ (fun _ => (1 : Fin 3)) (fun _ => (0 : Fin 3))).trans c3
  have g3 : u.toM 3 1 0 = 1 := by
    show u.at' 1 0 = 1
    rw [k4 1 0 (by decide)]; simp
  have g4 : u.toM 3 0 1 = 0 := by
    show u.at' 0 1 = 0
    rw [k4 0 1 (by decide)]; simp
  have s1 : sem ⟨0, true, .one 0, u⟩ (fun _ => (1 : Fin 3)) (fun _ => (0 : Fin 3)) = 1 := by
    rw [hs]
    refine Eq.trans ?_ g3
    exact if_pos (fun j hj => absurd (Subsingleton.elim j 0) hj)
  have s2 : invertSingles sem ⟨0, true, .one 0, u⟩ (fun _ => (1 : Fin 3)) (fun _ => (0 : Fin 3)) = 0 := by
    unfold invertSingles
    rw [if_pos rfl, hs, conjTranspose_apply]
    rw [star_eq_zero]
    refine Eq.trans ?_ g4
    exact if_pos (fun j hj => absurd (Subsingleton.elim j 0) hj)
  rw [Matrix.sub_apply, Matrix.smul_apply, s1, smul_eq_mul, mul_one] at f1
  rw [Matrix.sub_apply, Matrix.smul_apply, s2, smul_zero, sub_zero] at f2
  have e5 := qrError_small
  have e6 : ‖z‖ ≤ ‖circuitOp (instrOp (fun _ : Fin 1 => 3) sem) l (fun _ => 1) (fun _ => 0) - z‖ +
      ‖circuitOp (instrOp (fun _ : Fin 1 => 3) sem) l (fun _ => 1) (fun _ => 0)‖ := by
    have := norm_sub_le (circuitOp (instrOp (fun _ : Fin 1 => 3) sem) l (fun _ => 1) (fun _ => 0))
      (circuitOp (instrOp (fun _ : Fin 1 => 3) sem) l (fun _ => 1) (fun _ => 0) - z)
    rw [sub_sub_cancel] at this
    linarith
  rw [hz] at e6
  unfold lineError at f2
  push_cast at f2
  linarith

/-! ### cases -/

/-- Of two passes for gates on one line the later one, the adaptive pass, is given the Hadamard gates of the demo circuit. -/
example (hsp : FindsShortest sp) : ∃ N l b', ∀ fuel ≥ N, compile fuel sp id demoOther (List.replicate 2 (some qubitDevice)) ⟨[2, 2], demoGates⟩
      ["PhyLocQRPass", "LocAdaPass", "PhyEntQRCEXPass"] = .ok ⟨l, [[0, 1], [0, 1]], b'⟩ := by
  obtain ⟨N, l, b', h1, _⟩ := C78_compile_partial (rho := 0) (rnd := id) demoSem_ok hsp (by simp) ["PhyLocQRPass", "LocAdaPass", "PhyEntQRCEXPass"]
    (by decide) (qubits_ok 2) demoGates (fun g hg => by
      simp only [demoGates, List.mem_cons, List.not_mem_nil, or_false] at hg
      have hl : ∀ k : Nat, TranslatedBy (fun _ : Fin 2 => 2) (fun _ => 1) demoOther demoSem (List.replicate 2 (some qubitDevice))
          ⟨k, true, .one 0, gate2 quarterGate⟩ (some .phyLocAda) := by
        intro k
        refine ⟨⟨rfl, 0, rfl, gate2_unitary quarterGate_unitary⟩, fun i _ => ⟨by simp, ?_, fun gr hgr => ?_⟩⟩
        · rw [gate2_toM]
          exact noTiny_two quarterGate_unitary quarterGate_tiny
        · rw [List.getElem?_replicate, if_pos i.isLt] at hgr
          obtain rfl := Option.some.inj (Option.some.inj hgr)
          exact qubit_coupled
      rcases hg with rfl | rfl | rfl
      · exact hl 0
      · refine Or.inl ⟨rfl, rfl, 0, 1, 0, 1, 1, 0, by decide, rfl, rfl, rfl, by decide, le_refl _, by positivity, Or.inr rfl, ?_⟩
        rfl
      · exact hl 2)
  exact ⟨N, l, b', fun fuel hf => (h1 fuel).resolve_right fun h => by omega⟩

/-- as `demoSem`, with every gate on two lines read from its array -/
noncomputable def pairSem (g : Op (Arr2 ℂ)) : Matrix (Reg fun _ : Fin 2 => 2) (Reg fun _ : Fin 2 => 2) ℂ :=
  match g.target with
  | .one q => match lineOf 2 q with
    | some i => embed1 (X := LvOf fun _ : Fin 2 => 2) i (g.body.toM 2)
    | none => 1
  | .many qs => if qs = [0, 1] then embedPair (fun _ : Fin 2 => 2) 0 1 (g.body.toM (2 * 2)) else 1

theorem pairSem_ok : Semantics (fun _ : Fin 2 => 2) pairSem := by
  refine ⟨fun g i _ ht => ?_, fun g qs _ ht => ?_⟩
  · unfold pairSem
    rw [ht]
    have : lineOf 2 ((i : Nat) : Int) = some i := by
      unfold lineOf
      rw [dif_pos (by have := i.isLt; omega)]
      simp
    simp only [this]
  · unfold pairSem
    rw [ht]
    simp only
    split_ifs with h
    · subst h
      rw [embedPair_eq (d := fun _ : Fin 2 => 2) (i := 0) (j := 1) (by decide)]
      have : ({0, 1} : Finset (Fin 2)) = lineSet 2 [0, 1] := by decide
      unfold ActsOn
      rw [← this]
      exact ⟨_, rfl⟩
    · exact ⟨1, (embed_one _).symm⟩

/-- The logical passes on a Hadamard gate and the cyclic shift of the four levels of two qubits. -/
example (hsp : FindsPaths sp) (fuel : Nat) : ∃ u l b', xArray 4 = .ok u ∧ compile fuel sp id (fun _ => ⟨true, [2, 2], none⟩)
    (List.replicate 2 (some qubitDevice)) ⟨[2, 2], [⟨0, true, .one 0, gate2 quarterGate⟩, ⟨1, false, .many [0, 1], u⟩]⟩ ["LogLocQRPass", "LogEntQRCEXPass"] =
      .ok ⟨l, [[0, 1], [0, 1]], b'⟩ := by
  obtain ⟨u, h1, h2⟩ := C06_x 4
  obtain ⟨l, b', h, -⟩ := C78_logical_inverse (rho := 0) (rnd := id) (other := fun _ => ⟨true, [2, 2], none⟩) pairSem_ok hsp (by simp) fuel (qubits_ok 2)
    [⟨0, true, .one 0, gate2 quarterGate⟩, ⟨1, false, .many [0, 1], u⟩] (fun g hg => by
      simp only [List.mem_cons, List.not_mem_nil, or_false] at hg
      rcases hg with rfl | rfl
      · exact Or.inl ⟨rfl, 0, rfl, gate2_unitary quarterGate_unitary⟩
      · exact Or.inr (Or.inl ⟨0, 1, rfl, rfl, by decide, rfl, rfl, rfl, rfl, h2, rfl⟩))
  exact ⟨u, l, b', h1, h⟩

end Qudits
