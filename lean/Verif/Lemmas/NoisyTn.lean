import Verif.Lemmas.NoisyDraws
import Verif.Lemmas.Shots
import Verif.Lemmas.CustomGates
import Verif.Lemmas.RunCompiled
import Verif.Lemmas.Routing
import Verif.Props.NoiseProps
import Verif.Props.NoiseContentProps
import Verif.Spec.ShotsSpec
/- Lemmas for C83: the gates that the noisy circuit factory adds. -/
namespace Qudits.Shots
open Spec Matrix Complex NoisyFactory DD
variable {n : Nat} {d : Fin n → Nat}

theorem init_one (dims : List Nat) (name : String) (q : Int) :
    Gate.init dims name .single (.one q) none = .ok ⟨dims, name, .single, .one q, none, false, false⟩ := rfl

theorem one_line (name : String) (q : Fin n) {A : Arr2 ℂ} (hr : A.rows = d q) (hc : A.cols = d q) :
    (∃ ls, Flagged d ⟨List.ofFn d, name, .single, .one ((q : Nat) : Int), none, false, false⟩ ls) ∧
      HasOperator d ⟨List.ofFn d, name, .single, .one ((q : Nat) : Int), none, false, false⟩ A (embed1 (X := LvOf d) q (A.toM (d q))) := by
  have := constructed_flagged d name (.one ((q : Nat) : Int)) [q] A _ (by simp) (by simp) rfl (init_one _ _ _) (by simpa using hr) (by simpa using hc)
  rw [embed_single] at this
  exact ⟨⟨_, this.1⟩, this.2⟩

theorem errorOp_ok {q : Fin n} {e : NoisyInstr} {op : Gate × Arr2 ℂ} (h : errorOp (List.ofFn d) e = .ok op)
    (he : e = .x ((q : Nat) : Int) ∨ e = .z ((q : Nat) : Int) ∨ (∃ a b, e = .noisex ((q : Nat) : Int) a b) ∨ (∃ a b, e = .noisey ((q : Nat) : Int) a b) ∨
      ∃ l : Int, 0 ≤ l ∧ l < d q ∧ e = .noisez ((q : Nat) : Int) l) :
    ∃ M, ErrorOp d e M ∧ (∃ ls, Flagged d op.1 ls) ∧ HasOperator d op.1 op.2 M := by
  rcases he with rfl | rfl | ⟨a, b, rfl⟩ | ⟨a, b, rfl⟩ | ⟨l, h0, h1, rfl⟩
  · obtain ⟨A, hA, hr, hc, hent⟩ := xArray_ok (d q)
    unfold errorOp at h
    simp only [dimAt_ok, init_one, hA, bind, Except.bind, pure, Except.pure] at h
    cases h
    obtain ⟨k1, k2⟩ := one_line ("X" ++ toString (d q)) q hr hc
    have hM : A.toM (d q) = fun i j : Fin (d q) => if (i : Nat) = (j + 1) % d q then 1 else 0 := by
      funext i j
      exact hent i j j.2
    rw [hM] at k2
    exact ⟨_, .x q, k1, k2⟩
  · obtain ⟨A, hA, hr, hc, hent⟩ := zArray_ok (d q)
    unfold errorOp at h
    simp only [dimAt_ok, init_one, hA, bind, Except.bind, pure, Except.pure] at h
    cases h
    obtain ⟨k1, k2⟩ := one_line ("Z" ++ toString (d q)) q hr hc
    have hM : A.toM (d q) = fun i j : Fin (d q) => if i = j then cexp (2 * Real.pi * I / d q * (j : Nat)) else 0 := by
      funext i j
      rw [← omg_pow]
      refine (hent i j j.2).trans ?_
      simp [Fin.ext_iff]
    rw [hM] at k2
    exact ⟨_, .z q, k1, k2⟩
  · unfold errorOp at h
    simp only [dimAt_ok, init_one, bind, Except.bind, pure, Except.pure] at h
    cases hl : levelsInit (d q) (.list [.int a, .int b]) with
    | error e => rw [hl] at h; cases h
    | ok g =>
      obtain ⟨a', b', x, y, e1, e2, hne, hg, hx, hy⟩ := levelsInit_ok hl
      cases e1; cases e2
      obtain ⟨A, hA, hr, hc, hM⟩ := noiseX_ok hg
      simp only [hl, hA] at h
      cases h
      obtain ⟨k1, k2⟩ := one_line ("NoiseX" ++ toString (d q)) q hr hc
      refine ⟨_, .noisex q x y a b hg.lt hx hy, k1, ?_⟩
      rw [← hM]
      exact k2
  · unfold errorOp at h
    simp only [dimAt_ok, init_one, bind, Except.bind, pure, Except.pure] at h
    cases hl : levelsInit (d q) (.list [.int a, .int b]) with
    | error e => rw [hl] at h; cases h
    | ok g =>
      obtain ⟨a', b', x, y, e1, e2, hne, hg, hx, hy⟩ := levelsInit_ok hl
      cases e1; cases e2
      obtain ⟨A, hA, hr, hc, hM⟩ := noiseY_ok hg
      simp only [hl, hA] at h
      cases h
      obtain ⟨k1, k2⟩ := one_line ("NoiseY" ++ toString (d q)) q hr hc
      refine ⟨_, .noisey q x y a b hg.lt hx hy, k1, ?_⟩
      rw [← hM]
      exact k2
  · lift l to Nat using h0
    have hl : l < d q := by exact_mod_cast h1
    have hinit : virtRzInit (d q) (.list [.int l, .flt Real.pi]) = { levA := l, phi := regulateTheta Real.pi } := by
      unfold virtRzInit
      dsimp only
      rw [if_pos (by omega)]
    have hphi : (virtRzInit (d q) (.list [.int l, .flt Real.pi])).phi = Real.pi := by
      rw [hinit]
      exact regulate_pi
    obtain ⟨A, hA, hr, hc, hent⟩ := virtRzArray_ok (d := d q) (virtRzInit (d q) (.list [.int l, .flt Real.pi])) ⟨l, hl⟩ (by rw [hinit])
    unfold errorOp at h
    simp only [dimAt_ok, init_one, bind, Except.bind, pure, Except.pure, hA] at h
    cases h
    obtain ⟨k1, k2⟩ := one_line ("NoiseZ" ++ toString (d q)) q hr hc
    have hexp : cexp (-I * ((Real.pi : ℝ) : ℂ)) = -1 := by
      rw [neg_mul, mul_comm, Complex.exp_neg, Complex.exp_pi_mul_I]
      norm_num
    have hM : A.toM (d q) = fun i j : Fin (d q) => if i = j then (if i = ⟨l, hl⟩ then -1 else 1) else 0 := by
      funext i j
      refine (hent i j).trans ?_
      rw [hphi, hexp]
      by_cases hij : i = j
      · subst hij
        simp [Fin.ext_iff]
      · rw [if_neg hij, if_neg (fun e => hij (Fin.ext e))]
    rw [hM] at k2
    exact ⟨_, .noisez q ⟨l, hl⟩, k1, k2⟩

/-- a selected line is a line of the register -/
theorem selected_line {i : Instr} {ls : List (Fin n)} (hf : Flagged d i.gate ls) {mode : String} {q : Int} (h : Selected i mode q) :
    ∃ k : Fin n, q = ((k : Nat) : Int) := by
  have hmem : ∀ q : Int, q ∈ ls.map (fun i : Fin n => ((i : Nat) : Int)) → ∃ k : Fin n, q = ((k : Nat) : Int) := by
    intro q hq
    obtain ⟨k, _, rfl⟩ := List.mem_map.1 hq
    exact ⟨k, rfl⟩
  replace h : (mode = "local" ∧ q ∈ i.gate.controlLines ++ i.gate.target.lines) ∨ (mode = "all" ∧ 0 ≤ q ∧ q < i.gate.dims.length) ∨
      (mode = "nonlocal" ∧ i.gate.gateType ≠ .single ∧ q ∈ i.gate.controlLines ++ i.gate.target.lines) ∨
      (mode = "control" ∧ i.gate.gateType = .two ∧ ∃ rest, i.gate.target = .many (q :: rest)) ∨
      (mode = "target" ∧ ((i.gate.gateType ≠ .single ∧ ∃ a rest, i.gate.controlLines ++ i.gate.target.lines = a :: rest ∧ q ∈ rest) ∨
        (i.gate.gateType = .single ∧ i.gate.target = .one q))) := h
  have hlines := hf.lines
  rw [hlines] at h
  rcases h with ⟨-, h⟩ | ⟨-, h1, h2⟩ | ⟨-, -, h⟩ | ⟨-, -, rest, h⟩ | ⟨-, h⟩
  · exact hmem q h
  · rw [hf.dims, List.length_ofFn] at h2
    exact ⟨⟨q.toNat, by omega⟩, by simp; omega⟩
  · exact hmem q h
  · apply hmem
    rw [← hlines, h]
    simp [Target.lines]
  · rcases h with ⟨-, a, rest, h, hq⟩ | ⟨-, h⟩
    · apply hmem
      rw [h]
      simp [hq]
    · apply hmem
      rw [← hlines, h]
      simp [Target.lines]

theorem lineDim_eq {q : Fin n} {dim : Nat} (h : LineDim (List.ofFn d) ((q : Nat) : Int) dim) : dim = d q := by
  unfold LineDim at h
  rw [if_pos (by omega)] at h
  simp at h
  exact h.symm

theorem allowed_op {errs : Errors} {i : Instr} {ls : List (Fin n)} (hf : Flagged d i.gate ls) {e : NoisyInstr} (he : AllowedError (List.ofFn d) errs i e)
    {op : Gate × Arr2 ℂ} (h : errorOp (List.ofFn d) e = .ok op) : ∃ M, ErrorOp d e M ∧ (∃ ls, Flagged d op.1 ls) ∧ HasOperator d op.1 op.2 M := by
  obtain ⟨modes, mode, o, q, -, -, hq, hg⟩ := he
  obtain ⟨k, rfl⟩ := selected_line hf hq
  apply errorOp_ok (q := k) h
  unfold ErrorGate at hg
  cases o with
  | math _ =>
    rcases hg with rfl | rfl
    · exact .inl rfl
    · exact .inr (.inl rfl)
  | sub m =>
    obtain ⟨a, b, dim, -, hdim, hg⟩ := hg
    obtain rfl := lineDim_eq hdim
    rcases hg with ⟨_, _, h0, h1, rfl | rfl | rfl⟩ | ⟨lev, -, -, h0, h1, rfl⟩
    · exact .inr (.inr (.inl ⟨_, _, rfl⟩))
    · exact .inr (.inr (.inr (.inl ⟨_, _, rfl⟩)))
    · exact .inr (.inr (.inr (.inr ⟨_, h0, h1, rfl⟩)))
    · exact .inr (.inr (.inr (.inr ⟨_, h0, h1, rfl⟩)))

theorem allowed_not_orig {errs : Errors} {dims : List Nat} {i j : Instr} (h : AllowedError dims errs i (.orig j)) : False := by
  obtain ⟨_, _, o, q, _, _, _, hg⟩ := h
  unfold ErrorGate at hg
  cases o <;> simp at hg

theorem noisyOps_cons {dims : List Nat} {e : NoisyInstr} (he : ∀ j, e ≠ .orig j) (l : List NoisyInstr) (As : List (Arr2 ℂ)) :
    noisyOps dims (e :: l) As = (do
      let op ← errorOp dims e
      pure (op :: (← noisyOps dims l As))) := by
  cases e with
  | orig j => exact absurd rfl (he j)
  | _ => rfl

/-- the operators of the noisy circuit -/
theorem noisyOps_ok {errs : Errors} {instrs : List Instr} {out : List NoisyInstr} (h : Interleaved (AllowedError (List.ofFn d) errs) instrs out) :
    ∀ {circ : List (Instr × Arr2 ℂ)} {Ms : List (Matrix (Reg d) (Reg d) ℂ)} {ops : List (Gate × Arr2 ℂ)}, circ.map Prod.fst = instrs →
      Operators d circ Ms → noisyOps (List.ofFn d) out (circ.map Prod.snd) = .ok ops →
      ∃ Ns, WithErrorOps d errs (instrs.zip Ms) Ns ∧
        List.Forall₂ (fun op M => (∃ ls, Flagged d op.1 ls) ∧ HasOperator d op.1 op.2 M) ops Ns := by
  induction h with
  | nil =>
    intro circ Ms ops h1 _ h3
    cases h3
    exact ⟨[], .nil, .nil⟩
  | cons i ins rest out hins _ ih =>
    intro circ Ms ops h1 h2 h3
    obtain _ | ⟨⟨i', A⟩, circ⟩ := circ
    · cases h1
    rw [List.map_cons, List.cons.injEq] at h1
    obtain ⟨rfl, h1⟩ := h1
    cases h2 with
    | @cons _ M _ Ms hM h2 =>
    obtain ⟨⟨ls, hf⟩, hop⟩ := hM
    rw [List.map_cons] at h3
    unfold noisyOps at h3
    cases hrest : noisyOps (List.ofFn d) (ins ++ out) (circ.map Prod.snd) with
    | error e => rw [hrest] at h3; cases h3
    | ok ops' =>
      rw [hrest] at h3
      cases h3
      have key : ∀ (ins : List NoisyInstr) (ops' : List (Gate × Arr2 ℂ)), (∀ e ∈ ins, AllowedError (List.ofFn d) errs i' e) →
          noisyOps (List.ofFn d) (ins ++ out) (circ.map Prod.snd) = .ok ops' → ∃ Es opsE opsR,
          List.Forall₂ (ErrorOp d) ins Es ∧ List.Forall₂ (fun op M => (∃ ls, Flagged d op.1 ls) ∧ HasOperator d op.1 op.2 M) opsE Es ∧
          ops' = opsE ++ opsR ∧ noisyOps (List.ofFn d) out (circ.map Prod.snd) = .ok opsR := by
        intro ins
        induction ins with
        | nil =>
          intro ops' _ h
          exact ⟨[], [], ops', .nil, .nil, rfl, h⟩
        | cons e ins ihi =>
          intro ops' hall h
          have hne : ∀ j, e ≠ .orig j := by
            rintro j rfl
            exact allowed_not_orig (hall (.orig j) (by simp))
          rw [List.cons_append, noisyOps_cons hne] at h
          cases he : errorOp (List.ofFn d) e with
          | error x => rw [he] at h; cases h
          | ok op =>
            cases hr : noisyOps (List.ofFn d) (ins ++ out) (circ.map Prod.snd) with
            | error x => rw [he, hr] at h; cases h
            | ok ops'' =>
              rw [he, hr] at h
              cases h
              obtain ⟨Es, opsE, opsR, k1, k2, rfl, k4⟩ := ihi ops'' (fun e he => hall e (by simp [he])) hr
              obtain ⟨M, m1, m2⟩ := allowed_op hf (hall e (by simp)) he
              exact ⟨M :: Es, op :: opsE, opsR, .cons m1 k1, .cons m2 k2, rfl, k4⟩
      obtain ⟨Es, opsE, opsR, k1, k2, rfl, k4⟩ := key ins ops' hins hrest
      obtain ⟨Ns, n1, n2⟩ := ih h1 h2 k4
      exact ⟨M :: (Es ++ Ns), .cons i' M ins Es _ _ hins k1 n1, .cons ⟨⟨ls, hf⟩, hop⟩ (List.rel_append k2 n2)⟩

/-- the state of one shot -/
theorem tnState_ok (hn : 0 < n) (hpos : ∀ i, 0 < d i) {draws : Draws} {errs : Errors} {circ : List (Instr × Arr2 ℂ)}
    {Ms : List (Matrix (Reg d) (Reg d) ℂ)} (hops : Operators d circ Ms) {off o : Nat} {v : List ℂ}
    (h : tnState draws (List.ofFn d) errs circ off = .ok (v, o)) : ∃ psi, NoisyState d errs circ Ms psi ∧ Lists d v psi := by
  unfold tnState at h
  cases hg : generateP (fun k => draws (off + k)) (List.ofFn d) errs (circ.map Prod.fst) with
  | error e => rw [hg] at h; cases h
  | ok s =>
    simp only [hg, bind, Except.bind] at h
    cases ho : noisyOps (List.ofFn d) s.instrs (circ.map Prod.snd) with
    | error e => rw [ho] at h; cases h
    | ok ops =>
      simp only [ho] at h
      obtain ⟨Ns, n1, n2⟩ := noisyOps_ok (C23_noisy_circuit _ _ _ _ _ (generateP_refine hg)).1 rfl hops ho
      obtain ⟨w, w1, w2⟩ := C15_execute d hn hpos ops Ns n2
      rw [w1] at h
      cases h
      exact ⟨_, ⟨Ns, n1, rfl⟩, w2⟩

end Qudits.Shots
