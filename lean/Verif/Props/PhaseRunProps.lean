import Verif.Props.PhaseCircuitProps
import Verif.Lemmas.Trace
/-
C30: where the pass puts a run of rotations, and when this keeps the operator.
-/
namespace Qudits
open Spec Matrix Complex PhasePass

variable {n : Nat} {d : Fin n → Nat} {sem : PInstr → Matrix (Reg d) (Reg d) ℂ}

theorem intervals_prefix (a : List (List Nat)) (gs : List (Nat × PInstr)) (ivs : List (List Nat)) (cur : List Nat) (t : List Int) :
    gs.foldl intervalStep ⟨a ++ ivs, cur, t⟩ =
      ⟨a ++ (gs.foldl intervalStep ⟨ivs, cur, t⟩).intervals, (gs.foldl intervalStep ⟨ivs, cur, t⟩).current,
        (gs.foldl intervalStep ⟨ivs, cur, t⟩).targets⟩ := by
  induction gs generalizing ivs cur t with
  | nil => rfl
  | cons g gs ih =>
    rw [List.foldl_cons, List.foldl_cons]
    unfold intervalStep
    dsimp only
    by_cases h : t.length = 0 ∨ g.2.target.lines = t
    · rw [if_pos h, if_pos h]; exact ih _ _ _
    · rw [if_neg h, if_neg h, List.append_assoc]; exact ih _ _ _

theorem intervals_last (gs : List (Nat × PInstr)) (st : IntervalSt) (hne : gs ≠ []) :
    (gs.foldl intervalStep st).targets = (gs.getLast hne).2.target.lines ∧ 0 < (gs.foldl intervalStep st).current.length := by
  induction gs generalizing st with
  | nil => exact absurd rfl hne
  | cons g gs ih =>
    rw [List.foldl_cons]
    by_cases h : gs = []
    · subst h
      rw [List.foldl_nil]
      unfold intervalStep
      dsimp only
      split_ifs <;> simp
    · rw [List.getLast_cons h]
      exact ih _ h

theorem enum_last (k : Nat) (l : List PInstr) (hne : l ≠ []) (he : enum k l ≠ []) : ((enum k l).getLast he).2 = l.getLast hne := by
  induction l generalizing k with
  | nil => exact absurd rfl hne
  | cons g l ih =>
    by_cases h : l = []
    · subst h; rfl
    · have he' : enum (k + 1) l ≠ [] := by
        cases l with
        | nil => exact absurd rfl h
        | cons _ _ => simp [enum]
      have : (enum k (g :: l)).getLast he = (enum (k + 1) l).getLast he' := List.getLast_cons he'
      rw [this, ih (k + 1) h he', List.getLast_cons h]

/-- the intervals of a circuit with one run of neighbouring gates on the same lines -/
theorem findIntervals_one (pre run post : List PInstr) (q : List Int) (hq : q ≠ []) (hne : ∀ g ∈ pre, g.target.lines ≠ [])
    (hne' : ∀ g ∈ post, g.target.lines ≠ []) (hc : Alternating pre) (hc' : Alternating post)
    (hlast : ∀ g, pre.getLast? = some g → g.target.lines ≠ q) (hfirst : ∀ g, post.head? = some g → g.target.lines ≠ q)
    (hrun : ∀ g ∈ run, g.target.lines = q) (hr : run ≠ []) :
    ∃ ivs ivs', findIntervals (pre ++ run ++ post) = ivs ++ List.range' pre.length run.length :: ivs' ∧ (∀ iv ∈ ivs, iv.length ≤ 1) ∧
      ∀ iv ∈ ivs', iv.length ≤ 1 := by
  obtain ⟨ivs, e, hivs⟩ := findIntervals_tail pre run q hne hc hlast hrun hr
  have hpr : pre ++ run ≠ [] := by simp [hr]
  have hen : enum 0 (pre ++ run) ≠ [] := by
    cases h : pre ++ run with
    | nil => exact absurd h hpr
    | cons _ _ => simp [enum]
  obtain ⟨ht, hpos⟩ := intervals_last (enum 0 (pre ++ run)) ⟨[], [], []⟩ hen
  rw [enum_last 0 _ hpr hen, List.getLast_append_of_ne_nil _ hr, hrun _ (List.getLast_mem hr)] at ht
  unfold findIntervals at e ⊢
  dsimp only at e ⊢
  rw [if_pos hpos] at e
  rw [enum_append, List.foldl_append]
  obtain ⟨e1, e2⟩ := List.append_inj' e rfl
  injection e2 with e2
  generalize (enum 0 (pre ++ run)).foldl intervalStep ⟨[], [], []⟩ = st at *
  obtain ⟨si, sc, sts⟩ := st
  subst e1 e2 ht
  dsimp only at *
  cases post with
  | nil =>
    refine ⟨si, [], ?_, hivs, by simp⟩
    rw [enum, List.foldl_nil, if_pos hpos]
  | cons g post =>
    have h1 : intervalStep ⟨si, List.range' pre.length run.length, sts⟩ (0 + (pre ++ run).length, g) =
        ⟨(si ++ [List.range' pre.length run.length]) ++ [], [0 + (pre ++ run).length], g.target.lines⟩ := by
      unfold intervalStep
      dsimp only
      rw [if_neg, List.append_nil]
      rintro (h | h)
      · exact hq (List.length_eq_zero_iff.1 h)
      · exact hfirst g rfl h
    obtain ⟨ivs', cur', t', e', h2, h3, -, -⟩ := intervals_alt post (fun g' hg' => hne' g' (List.mem_cons_of_mem _ hg'))
      hc'.tail (0 + (pre ++ run).length + 1) [] (by simp) [0 + (pre ++ run).length] (by simp) g.target.lines (hne' g (by simp)) (by
        intro g' hg'
        cases post with
        | nil => cases hg'
        | cons b post =>
          injection hg' with hg'
          subst hg'
          exact (List.isChain_cons_cons.1 hc').1.symm)
    rw [enum, List.foldl_cons, h1, intervals_prefix, e']
    dsimp only
    by_cases hcur : cur'.length > 0
    · refine ⟨si, ivs' ++ [cur'], ?_, hivs, ?_⟩
      · rw [if_pos hcur]; simp
      · intro iv hiv
        rcases List.mem_append.1 hiv with h | h
        · exact h2 iv h
        · rw [List.mem_singleton.1 h]; exact h3
    · refine ⟨si, ivs', ?_, hivs, h2⟩
      rw [if_neg hcur]; simp

/-- C30 for circuits with one run of at least two neighbouring rotations on a line: the pass succeeds, leaves all other gates as they are, and moves
the run, with its operator, to the end of the circuit. -/
theorem C30_moved (h : GateSemantics d sem) (i : Fin n) (pre run post : List PInstr) (hr : 2 ≤ run.length)
    (hne : ∀ g ∈ pre ++ post, g.target.lines ≠ []) (hc : Alternating pre) (hc' : Alternating post)
    (hlast : ∀ g, pre.getLast? = some g → g.target.lines ≠ [((i : Nat) : Int)])
    (hfirst : ∀ g, post.head? = some g → g.target.lines ≠ [((i : Nat) : Int)])
    (hrun : ∀ g ∈ run, PhaseGate (d i) (i : Nat) g) (back : Bool) :
    ∃ new, removeZ (pre ++ run ++ post) back = .ok (pre ++ post ++ new) ∧ (∀ g ∈ new, PhaseGate (d i) (i : Nat) g) ∧
      circuitOp sem new = circuitOp sem run := by
  have hr0 : run ≠ [] := by intro h0; rw [h0] at hr; simp at hr
  obtain ⟨ivs, ivs', e, h1, h2⟩ := findIntervals_one pre run post [((i : Nat) : Int)] (by simp)
    (fun g hg => hne g (List.mem_append_left _ hg)) (fun g hg => hne g (List.mem_append_right _ hg)) hc hc' hlast hfirst
    (fun g hg => by rw [(hrun g hg).1]; rfl) hr0
  obtain ⟨rots, zs, hp, hop, hgates, _⟩ := C29_propagate (d i) (i : Nat) run hr0 hrun back
  have hg : ∀ g ∈ (if back then zs ++ rots else rots ++ zs), PhaseGate (d i) (i : Nat) g := by
    intro g hg
    apply hgates
    cases back
    · exact hg
    · rw [if_pos rfl] at hg
      rw [List.mem_append] at hg ⊢
      exact hg.symm
  refine ⟨if back then zs ++ rots else rots ++ zs, ?_, hg, ?_⟩
  · have hseq : ((pre ++ run ++ post).take (pre.length + run.length)).drop pre.length = run := by
      rw [← List.length_append, List.take_left, List.drop_left]
    unfold removeZ
    rw [e, List.foldlM_append, removeZ_short _ _ _ _ h1]
    change List.foldlM _ (pre ++ run ++ post) _ = _
    rw [List.foldlM_cons, removeZStep_range _ _ back pre.length run.length (by omega) (by simp) rots zs (by rw [hseq, hp])]
    change List.foldlM _ _ _ = _
    rw [removeZ_short _ _ _ _ h2, ← List.length_append, List.drop_left, List.append_assoc pre run post, List.take_left]
  · rw [sem_run h i run hrun, sem_run h i _ hg, hop]

/-- C30 for the same circuits, exactly: the operator is kept if and only if the operator of the run commutes with the one of the gates behind it (the
gates in front being invertible). -/
theorem C30_one_run_exact (h : GateSemantics d sem) (i : Fin n) (pre run post : List PInstr) (hr : 2 ≤ run.length)
    (hne : ∀ g ∈ pre ++ post, g.target.lines ≠ []) (hc : Alternating pre) (hc' : Alternating post)
    (hlast : ∀ g, pre.getLast? = some g → g.target.lines ≠ [((i : Nat) : Int)])
    (hfirst : ∀ g, post.head? = some g → g.target.lines ≠ [((i : Nat) : Int)])
    (hrun : ∀ g ∈ run, PhaseGate (d i) (i : Nat) g) (back : Bool) (hu : _root_.IsUnit (circuitOp sem pre)) :
    ∃ l', removeZ (pre ++ run ++ post) back = .ok l' ∧
      (circuitOp sem l' = circuitOp sem (pre ++ run ++ post) ↔
        circuitOp sem run * circuitOp sem post = circuitOp sem post * circuitOp sem run) := by
  obtain ⟨new, e, -, hop⟩ := C30_moved h i pre run post hr hne hc hc' hlast hfirst hrun back
  refine ⟨_, e, ?_⟩
  rw [circuitOp_append, circuitOp_append, circuitOp_append, circuitOp_append, hop, ← mul_assoc, ← mul_assoc]
  constructor
  · intro h; exact hu.mul_right_cancel h
  · intro h; rw [h]

/-- C30 for circuits with one run, if no gate behind the run acts on its line: in both directions the pass succeeds and keeps the operator. -/
theorem C30_last_on_line_partial (h : GateSemantics d sem) (i : Fin n) (pre run post : List PInstr) (hr : 2 ≤ run.length)
    (hne : ∀ g ∈ pre ++ post, g.target.lines ≠ []) (hc : Alternating pre) (hc' : Alternating post)
    (hlast : ∀ g, pre.getLast? = some g → g.target.lines ≠ [((i : Nat) : Int)])
    (hfirst : ∀ g, post.head? = some g → g.target.lines ≠ [((i : Nat) : Int)])
    (hrun : ∀ g ∈ run, PhaseGate (d i) (i : Nat) g)
    (hpost : ∀ g ∈ post, ∃ qs, ((i : Nat) : Int) ∉ qs ∧ ActsOn d qs (sem g)) (back : Bool) :
    ∃ l', removeZ (pre ++ run ++ post) back = .ok l' ∧ circuitOp sem l' = circuitOp sem (pre ++ run ++ post) := by
  obtain ⟨new, e, -, hop⟩ := C30_moved h i pre run post hr hne hc hc' hlast hfirst hrun back
  refine ⟨_, e, ?_⟩
  have hcomm : Commute (circuitOp sem run) (circuitOp sem post) := by
    clear e hc' hfirst hne
    induction post with
    | nil => rw [circuitOp_nil]; exact Commute.one_right _
    | cons g post ih =>
      rw [circuitOp_cons]
      refine (ih fun g' hg' => hpost g' (List.mem_cons_of_mem _ hg')).mul_right ?_
      obtain ⟨qs, hq, ha⟩ := hpost g (by simp)
      obtain ⟨m, hm⟩ := ha
      rw [sem_run h i run hrun, hm]
      refine embed1_commute_embed (X := LvOf d) i _ ?_ _ _
      unfold lineSet
      rw [Finset.mem_filter]
      exact fun hx => hq hx.2
  rw [circuitOp_append, circuitOp_append, circuitOp_append, circuitOp_append, hop, ← mul_assoc, ← mul_assoc, hcomm.eq]

/-- hypotheses are met: an entangling gate on three qubits, two rotations on qubit 1, then an entangling gate on the other two qubits -/
example (sem : PInstr → Matrix (Reg fun _ : Fin 3 => 2) (Reg fun _ : Fin 3 => 2) ℂ) (h : GateSemantics _ sem) (back : Bool) :
    ∃ l', removeZ ([⟨.other 0, .many [0, 1, 2], 0, none, false⟩] ++ [qubitR 1 1 0, qubitR 1 2 1] ++ [⟨.other 1, .many [0, 2], 0, none, false⟩]) back =
      .ok l' ∧ circuitOp sem l' =
        circuitOp sem ([⟨.other 0, .many [0, 1, 2], 0, none, false⟩] ++ [qubitR 1 1 0, qubitR 1 2 1] ++ [⟨.other 1, .many [0, 2], 0, none, false⟩]) := by
  refine C30_last_on_line_partial h (1 : Fin 3) _ _ _ (by simp) ?_ (List.isChain_singleton _) (List.isChain_singleton _) ?_ ?_ ?_ ?_ back
  · intro g hg
    simp only [List.mem_append, List.mem_singleton] at hg
    rcases hg with rfl | rfl <;> simp [Target.lines]
  · rintro g hg
    injection hg with hg
    subst hg
    simp [Target.lines]
  · rintro g hg
    injection hg with hg
    subst hg
    simp [Target.lines]
  · intro g hg
    simp only [List.mem_cons, List.not_mem_nil, or_false] at hg
    rcases hg with rfl | rfl <;> exact qubitR_phase _ _ _
  · intro g hg
    rw [List.mem_singleton.1 hg]
    exact ⟨[0, 2], by simp, h.2 _ _ rfl⟩

end Qudits
