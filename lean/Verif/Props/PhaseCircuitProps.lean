import Verif.Props.PhaseProps
import Verif.Lemmas.PhaseRemoval
import Verif.Lemmas.Apply
/-
C30, C31: the two passes on whole circuits.
-/
namespace Qudits
open Spec Matrix Complex PhasePass

/-- every register has such a semantics -/
theorem gateSemantics_exists {n : Nat} (d : Fin n → Nat) (hpos : ∀ i, 0 < d i) : ∃ sem, GateSemantics d sem := by
  classical
  have hM : ∀ (g : PInstr) (i : Fin n), ∃ M : Matrix (Fin (d i)) (Fin (d i)) ℂ,
      ∀ A, arrayOf g = some (.ok A) → M = if g.dagger then (A.toM (d i))ᴴ else A.toM (d i) := by
    intro g i
    by_cases h : ∃ A, arrayOf g = some (.ok A)
    · obtain ⟨A, hA⟩ := h
      refine ⟨if g.dagger then (A.toM (d i))ᴴ else A.toM (d i), ?_⟩
      intro B hB
      rw [hA] at hB
      injection hB with hB
      injection hB with hB
      rw [hB]
    · exact ⟨1, fun A hA => absurd ⟨A, hA⟩ h⟩
  choose M hM using hM
  have hlev : ∀ c : ControlData, ∃ lev : Reg d, ∀ lev' : Reg d, Matches c lev' → Matches c lev := by
    intro c
    by_cases h : ∃ lev : Reg d, Matches c lev
    · obtain ⟨lev, hl⟩ := h
      exact ⟨lev, fun _ _ => hl⟩
    · exact ⟨fun i => ⟨0, hpos i⟩, fun lev' hl => absurd ⟨lev', hl⟩ h⟩
  choose lev hlev using hlev
  have : ∀ g : PInstr, ∃ A : Matrix (Reg d) (Reg d) ℂ,
      (∀ i : Fin n, g.target = .one (i : Nat) →
        (g.controls = none → A = embed1 (X := LvOf d) i (M g i)) ∧
        (∀ c, g.controls = some c → A = controlled (lineSet n c.indices) (lev c) (embed1 (X := LvOf d) i (M g i)))) ∧
      ∀ qs, g.target = .many qs → ActsOn d qs A := by
    intro g
    cases ht : g.target with
    | many qs =>
      refine ⟨embed (X := LvOf d) (lineSet n qs) 1, ?_, ?_⟩
      · intro i hi; cases hi
      · intro qs' h; injection h with h; subst h; exact ⟨1, rfl⟩
    | one q =>
      by_cases hq : ∃ i : Fin n, q = (i : Nat)
      · obtain ⟨i, rfl⟩ := hq
        cases hc : g.controls with
        | none =>
          refine ⟨embed1 (X := LvOf d) i (M g i), ?_, fun qs h => by cases h⟩
          intro j hj
          injection hj with hj
          have : i = j := Fin.ext (by exact_mod_cast hj)
          subst this
          exact ⟨fun _ => rfl, fun c h => by cases h⟩
        | some c =>
          refine ⟨controlled (lineSet n c.indices) (lev c) (embed1 (X := LvOf d) i (M g i)), ?_, fun qs h => by cases h⟩
          intro j hj
          injection hj with hj
          have : i = j := Fin.ext (by exact_mod_cast hj)
          subst this
          refine ⟨fun h => (nomatch h), fun c' h => ?_⟩
          injection h with h
          rw [h]
      · refine ⟨1, ?_, fun qs h => by cases h⟩
        intro i hi
        injection hi with hi
        exact absurd ⟨i, hi⟩ hq
  choose sem hs using this
  refine ⟨sem, ?_, fun g qs h => (hs g).2 qs h⟩
  intro g i ht
  exact ⟨M g i, hM g i, ((hs g).1 i ht).1, fun c hc => ⟨lev c, hlev c, ((hs g).1 i ht).2 c hc⟩⟩

/-! ### C31 -/

variable {n : Nat} {d : Fin n → Nat} {sem : PInstr → Matrix (Reg d) (Reg d) ℂ}

/-- the state with all lines at level 0 -/
def ground (d : Fin n → Nat) : Reg d → ℂ := fun x => if ∀ i, ((x i : Fin (d i)) : Nat) = 0 then 1 else 0

/-- Removing the leading phase gates changes the state prepared from all zeros by a global phase only. -/
theorem C31_initial (h : GateSemantics d sem) (hpos : ∀ i, 0 < d i) (l : List PInstr)
    (hl : ∀ g ∈ l, OnRegister d g ∧ PhaseParams g ∧ (PKind.isPhase g.kind = true → g.controls = none)) :
    ∃ c : ℂ, ‖c‖ = 1 ∧
      circuitOp sem l *ᵥ ground d = c • (circuitOp sem (removeRz n l false) *ᵥ ground d) := by
  rw [removeRz_forward]
  refine keep_initial h hpos l hl n [] (ground d) ?_
  intro x hx p _
  unfold ground at hx
  split_ifs at hx with h0
  · exact h0 p
  · exact absurd rfl hx

/-- Removing the trailing phase gates changes the amplitudes of every state by phases only, whatever the input. -/
theorem C31_trailing (h : GateSemantics d sem) (l : List PInstr)
    (hl : ∀ g ∈ l, OnRegister d g ∧ PhaseParams g ∧ (PKind.isPhase g.kind = true → g.controls = none))
    (v : Reg d → ℂ) (x : Reg d) :
    ‖(circuitOp sem (removeRz n l true) *ᵥ v) x‖ = ‖(circuitOp sem l *ᵥ v) x‖ := by
  obtain ⟨f, hf, e⟩ := keep_trailing h l.reverse (fun g hg => hl g (List.mem_reverse.1 hg)) n []
  have e1 : circuitOp sem l = (l.reverse.map sem).prod := by unfold circuitOp; rw [List.map_reverse]
  have e2 : circuitOp sem (removeRz n l true) = ((keep n [] l.reverse).map sem).prod := by
    rw [removeRz_backward]; unfold circuitOp; rw [List.map_reverse, List.reverse_reverse]
  rw [e1, e, ← e2, ← mulVec_mulVec, mulVec_diagonal, norm_mul, hf.1, one_mul]

/-- C31 for circuits in which no phase gate carries controls: every measurement probability is unchanged. All other
gates are arbitrary, with or without controls. Missing: phase gates with controls, for which the claim is false. -/
theorem C31_partial (h : GateSemantics d sem) (hpos : ∀ i, 0 < d i) (l : List PInstr)
    (hl : ∀ g ∈ l, OnRegister d g ∧ PhaseParams g ∧ (PKind.isPhase g.kind = true → g.controls = none)) (x : Reg d) :
    ‖(circuitOp sem (zRemoval n l) *ᵥ ground d) x‖ = ‖(circuitOp sem l *ᵥ ground d) x‖ := by
  obtain ⟨c, hc, e⟩ := C31_initial h hpos l hl
  unfold zRemoval
  rw [C31_trailing h _ (fun g hg => hl g (by rw [removeRz_forward] at hg; exact mem_keep hg)), e, Pi.smul_apply,
    smul_eq_mul, norm_mul, hc, one_mul]

/-- hypotheses are met by a circuit with gates to remove on both ends, and something is removed -/
example : (∀ g ∈ [(⟨.z, .one 0, 3, none, true⟩ : PInstr), ⟨.r ⟨0, 2, 1, 0⟩, .one 0, 3, none, false⟩,
      ⟨.other 0, .many [0, 1], 0, none, false⟩, ⟨.virtRz ⟨1, 0, 1, 0⟩, .one 0, 3, none, false⟩],
      OnRegister (fun _ : Fin 2 => 3) g ∧ PhaseParams g ∧ (PKind.isPhase g.kind = true → g.controls = none)) ∧
    zRemoval 2 [(⟨.z, .one 0, 3, none, true⟩ : PInstr), ⟨.r ⟨0, 2, 1, 0⟩, .one 0, 3, none, false⟩,
      ⟨.other 0, .many [0, 1], 0, none, false⟩, ⟨.virtRz ⟨1, 0, 1, 0⟩, .one 0, 3, none, false⟩] =
      [⟨.r ⟨0, 2, 1, 0⟩, .one 0, 3, none, false⟩, ⟨.other 0, .many [0, 1], 0, none, false⟩] := by
  refine ⟨?_, rfl⟩
  intro g hg
  simp only [List.mem_cons, List.not_mem_nil, or_false] at hg
  have h0 : ∀ q : Int, Target.one 0 = Target.one q → ∃ i : Fin 2, q = (i : Nat) ∧ 3 = 3 := by
    intro q h; injection h with h; exact ⟨0, by simp [← h], rfl⟩
  rcases hg with rfl | rfl | rfl | rfl
  · exact ⟨h0, trivial, fun _ => rfl⟩
  · exact ⟨h0, trivial, fun _ => rfl⟩
  · exact ⟨fun q h => (nomatch h), trivial, fun _ => rfl⟩
  · exact ⟨h0, ⟨by decide, by decide⟩, fun _ => rfl⟩

/-- a virtual Z rotation on qubit 1 that is active when qubit 0 is at level 1 -/
noncomputable def ctrlZ : PInstr := ⟨.virtRz { levA := 0, phi := Real.pi }, .one 1, 2, some ⟨[0], [1]⟩, false⟩

theorem virtRz_one_line {p : TwoLevel} {g : PInstr} {k : Nat} (hd : g.dim = k) (hk : g.kind = .virtRz p) (a : Fin k)
    (h : p.levA = (a : Nat)) : ∃ A, arrayOf g = some (.ok A) ∧
      A.toM k = diagonal fun i => if i = a then cexp (-I * p.phi) else 1 := by
  obtain ⟨A, hA, _, _, h3⟩ := virtRzArray_ok p a h
  refine ⟨A, ?_, ?_⟩
  · unfold arrayOf; rw [hk, hd]; dsimp only; rw [hA]
  · ext r c
    rw [Arr2.toM, h3, diagonal_apply]
    simp only [Fin.ext_iff]
    by_cases hrc : (r : Nat) = c <;> simp [hrc]

theorem sem_qubitR {sem : PInstr → Matrix (Reg fun _ : Fin 2 => 2) (Reg fun _ : Fin 2 => 2) ℂ}
    (h : GateSemantics (fun _ : Fin 2 => 2) sem) (i : Fin 2) (theta phi : ℝ) :
    sem (qubitR (i : Nat) theta phi) = embed1 (X := LvOf fun _ : Fin 2 => 2) i (twoLevel 0 1 (rot theta phi)) := by
  obtain ⟨M, h1, h2, _⟩ := h.1 (qubitR (i : Nat) theta phi) i rfl
  obtain ⟨A, hA, _, _, h3⟩ := rArray_ok (good01 theta phi)
  have := h1 A (by unfold arrayOf qubitR; dsimp only; rw [hA])
  rw [h2 rfl, this, ← h3]
  rfl

theorem pi4_norm : ((Real.sqrt 2 / 2 : ℝ) : ℂ) * ((Real.sqrt 2 / 2 : ℝ) : ℂ) = 1 / 2 := by
  rw [← Complex.ofReal_mul]
  have : Real.sqrt 2 / 2 * (Real.sqrt 2 / 2) = 1 / 2 := by
    have := Real.mul_self_sqrt (show (0 : ℝ) ≤ 2 by norm_num)
    linear_combination this / 4
  rw [this]; norm_num

/-- a quarter turn on one qubit -/
noncomputable def quarter : Matrix (Fin 2) (Fin 2) ℂ := twoLevel 0 1 (rot (Real.pi / 2) 0)

theorem quarter_entries : quarter 0 0 = (Real.sqrt 2 / 2 : ℝ) ∧ quarter 1 1 = (Real.sqrt 2 / 2 : ℝ) ∧
    quarter 0 1 = -I * (Real.sqrt 2 / 2 : ℝ) ∧ quarter 1 0 = -I * (Real.sqrt 2 / 2 : ℝ) := by
  unfold quarter
  have e : Real.pi / 2 / 2 = Real.pi / 4 := by ring
  refine ⟨?_, ?_, ?_, ?_⟩ <;>
    simp [twoLevel, rot, e, Real.cos_pi_div_four, Real.sin_pi_div_four, -ofReal_sin, -ofReal_cos]

/-- C31 fails for phase gates with controls. Quarter turn on qubit 0, the controlled virtual Z rotation on qubit 1,
quarter turn on qubit 0: the pass drops the middle gate since nothing happened on qubit 1 before it; the outcome `00`
then has probability 0 instead of 1. -/
theorem C31_controlled_violated :
    zRemoval 2 [qubitR 0 (Real.pi / 2) 0, ctrlZ, qubitR 0 (Real.pi / 2) 0] =
      [qubitR 0 (Real.pi / 2) 0, qubitR 0 (Real.pi / 2) 0] ∧
    ∀ sem, GateSemantics (fun _ : Fin 2 => 2) sem →
      ‖(circuitOp sem [qubitR 0 (Real.pi / 2) 0, ctrlZ, qubitR 0 (Real.pi / 2) 0] *ᵥ ground _) (fun _ => 0)‖ = 1 ∧
      ‖(circuitOp sem [qubitR 0 (Real.pi / 2) 0, qubitR 0 (Real.pi / 2) 0] *ᵥ ground _) (fun _ => 0)‖ = 0 := by
  refine ⟨rfl, ?_⟩
  intro sem h
  obtain ⟨q00, q11, q01, q10⟩ := quarter_entries
  have hR : sem (qubitR 0 (Real.pi / 2) 0) = embed1 (X := LvOf fun _ : Fin 2 => 2) 0 quarter := sem_qubitR h 0 _ _
  have hv1 : ∀ x : Reg fun _ : Fin 2 => 2, (sem (qubitR 0 (Real.pi / 2) 0) *ᵥ ground _) x =
      if x 1 = 0 then quarter (x 0) 0 else 0 := by
    intro x
    rw [hR, embed1_mulVec]
    change ∑ k : Fin 2, quarter (x 0) k * ground _ (Function.update x 0 k) = _
    have hg : ∀ k : Fin 2, ground (fun _ : Fin 2 => 2) (Function.update x 0 k) = if k = 0 ∧ x 1 = 0 then 1 else 0 := by
      intro k
      unfold ground
      refine if_congr ?_ rfl rfl
      constructor
      · intro hc
        refine ⟨Fin.ext ?_, Fin.ext ?_⟩
        · have := hc 0; rw [Function.update_self] at this; exact this
        · have := hc 1; rw [Function.update_of_ne (by decide)] at this; exact this
      · rintro ⟨rfl, hx⟩ i
        rcases Fin.exists_fin_two.1 ⟨i, rfl⟩ with rfl | rfl
        · rw [Function.update_self]; rfl
        · rw [Function.update_of_ne (by decide), hx]; rfl
    rw [Fin.sum_univ_two, hg, hg]
    by_cases hx : x 1 = 0 <;> simp [hx]
  have hC : ∀ v : Reg (fun _ : Fin 2 => 2) → ℂ, ∀ x : Reg fun _ : Fin 2 => 2, x 1 = 0 →
      (sem ctrlZ *ᵥ v) x = if x 0 = 1 then - v x else v x := by
    intro v x hx
    obtain ⟨M, h1, _, h3⟩ := h.1 ctrlZ 1 rfl
    obtain ⟨A, hA, hAM⟩ := virtRz_one_line (g := ctrlZ) (k := 2) rfl rfl 0 rfl
    have hM : M = diagonal fun i : Fin 2 => if i = 0 then cexp (-I * (Real.pi : ℝ)) else 1 := by
      rw [h1 A hA]; exact hAM
    obtain ⟨lev, hlev, e⟩ := h3 _ rfl
    have hl0 : lev 0 = (1 : Fin 2) := by
      have := hlev (fun _ => (1 : Fin 2)) (by
        intro p hp j _
        change p ∈ [((0 : Int), (1 : Int))] at hp
        rw [List.mem_singleton] at hp
        rw [hp]; rfl) (0, 1) (by change _ ∈ [((0 : Int), (1 : Int))]; simp) 0 rfl
      apply Fin.ext
      have h' : (((lev 0 : Fin 2) : Nat) : Int) = 1 := this
      exact_mod_cast h'
    have hdiag : sem ctrlZ = diagonal fun y : Reg fun _ : Fin 2 => 2 =>
        if y 0 = (1 : Fin 2) then (if y 1 = (0 : Fin 2) then cexp (-I * (Real.pi : ℝ)) else 1) else 1 := by
      rw [e, hM]
      have := embed1_diagonal (d := fun _ : Fin 2 => 2) 1
        (fun i : Fin 2 => if i = 0 then cexp (-I * (Real.pi : ℝ)) else 1)
      rw [this]
      ext y z
      rw [controlled, diagonal_apply, diagonal_apply]
      have hiff : (∀ i ∈ lineSet 2 [0], z i = lev i) ↔ z 0 = (1 : Fin 2) := by
        constructor
        · intro hh; rw [← hl0]; exact hh 0 (by unfold lineSet; simp)
        · intro hh i hi
          unfold lineSet at hi
          simp at hi
          subst hi
          rw [hl0]; exact hh
      by_cases hyz : y = z
      · subst hyz
        by_cases hz : y 0 = (1 : Fin 2)
        · rw [if_pos (hiff.2 hz)]; simp [hz]
        · rw [if_neg (fun hh => hz (hiff.1 hh))]; simp [hz]
      · simp [hyz]
    rw [hdiag, mulVec_diagonal]
    by_cases hx0 : x 0 = (1 : Fin 2)
    · rw [if_pos hx0, if_pos hx, if_pos hx0]
      rw [show -I * (Real.pi : ℂ) = -(Real.pi * I) by ring, Complex.exp_neg, Complex.exp_pi_mul_I]
      norm_num
    · rw [if_neg hx0, if_neg hx0, one_mul]
  have hlast : ∀ v : Reg (fun _ : Fin 2 => 2) → ℂ,
      (sem (qubitR 0 (Real.pi / 2) 0) *ᵥ v) (fun _ => 0) =
        quarter 0 0 * v (fun _ => 0) + quarter 0 1 * v (Function.update (fun _ => 0) 0 1) := by
    intro v
    rw [hR, embed1_mulVec]
    change ∑ k : Fin 2, quarter 0 k * v (Function.update (fun _ => 0) 0 k) = _
    rw [Fin.sum_univ_two]
    congr 3
    funext i
    by_cases hi : i = 0
    · subst hi; rw [Function.update_self]
    · rw [Function.update_of_ne hi]
  have hsq := pi4_norm
  constructor
  · rw [circuitOp_cons, circuitOp_cons, circuitOp_cons, circuitOp_nil, one_mul, ← mulVec_mulVec, ← mulVec_mulVec, hlast,
      hC _ _ rfl, hC _ _ (by rw [Function.update_of_ne (by decide)]), hv1, hv1]
    simp [q00, q01, q10, -ofReal_div]
    have e : ((Real.sqrt 2 / 2 : ℝ) : ℂ) * ((Real.sqrt 2 / 2 : ℝ) : ℂ) +
        -(I * ((Real.sqrt 2 / 2 : ℝ) : ℂ) * (I * ((Real.sqrt 2 / 2 : ℝ) : ℂ))) = 1 := by
      linear_combination 2 * hsq - ((Real.sqrt 2 / 2 : ℝ) : ℂ) * ((Real.sqrt 2 / 2 : ℝ) : ℂ) * I_mul_I
    rw [e, norm_one]
  · rw [circuitOp_cons, circuitOp_cons, circuitOp_nil, one_mul, ← mulVec_mulVec, hlast, hv1, hv1]
    simp [q00, q01, q10, -ofReal_div]
    linear_combination ((Real.sqrt 2 / 2 : ℝ) : ℂ) * ((Real.sqrt 2 / 2 : ℝ) : ℂ) * I_mul_I

/-! ### C30 -/

theorem enum_append {γ : Type} (k : Nat) (a b : List γ) : enum k (a ++ b) = enum k a ++ enum (k + a.length) b := by
  induction a generalizing k with
  | nil => rfl
  | cons x a ih =>
    rw [List.cons_append, enum, ih, enum, List.cons_append, List.length_cons]
    congr 3; omega

theorem intervalStep_first (ivs : List (List Nat)) (cur : List Nat) (ig : Nat × PInstr) :
    intervalStep ⟨ivs, cur, []⟩ ig = ⟨ivs, cur ++ [ig.1], ig.2.target.lines⟩ := by
  unfold intervalStep
  exact if_pos (Or.inl rfl)

/-- one interval of consecutive positions -/
theorem removeZStep_range (l new : List PInstr) (back : Bool) (lo len : Nat) (hlen : 1 < len) (hnew : lo + len ≤ new.length)
    (rots zs : List PInstr) (hp : propagateZ ((l.take (lo + len)).drop lo) back = .ok (rots, zs)) :
    removeZStep l back new (List.range' lo len) =
      .ok (new.take lo ++ new.drop (lo + len) ++ (if back then zs ++ rots else rots ++ zs)) := by
  have hhead : (List.range' lo len).headD 0 = lo := by
    rw [show len = len - 1 + 1 by omega, List.range'_succ]; rfl
  have hgl : (List.range' lo len).getLastD 0 = lo + len - 1 := by
    rw [List.getLastD_eq_getLast?, List.getLast?_range', if_neg (by omega)]
    simp
  unfold removeZStep
  dsimp only
  rw [if_pos (by simpa using hlen), hhead, hgl, show lo + len - 1 + 1 = lo + len by omega, hp]
  have e : sliceAssign new (lo : Int) (((lo + len - 1 : Nat) : Int) + 1) [] = new.take lo ++ new.drop (lo + len) := by
    unfold sliceAssign sliceBound
    dsimp only
    rw [if_neg (by omega), if_neg (by omega), List.append_nil]
    rw [show min ((lo : Int).toNat) new.length = lo by omega,
      show max lo (min ((((lo + len - 1 : Nat) : Int) + 1).toNat) new.length) = lo + len by omega]
  change Except.ok (sliceAssign new (lo : Int) (((lo + len - 1 : Nat) : Int) + 1) [] ++ _) = _
  rw [e]

/-- scanning gates that all act on the same lines -/
theorem intervals_run (q : List Int) (run : List PInstr) (hrun : ∀ g ∈ run, g.target.lines = q) (k : Nat)
    (ivs : List (List Nat)) (cur : List Nat) :
    (enum k run).foldl intervalStep ⟨ivs, cur, q⟩ = ⟨ivs, cur ++ List.range' k run.length, q⟩ := by
  induction run generalizing k cur with
  | nil => simp [enum]
  | cons g run ih =>
    have hg := hrun g (by simp)
    rw [enum, List.foldl_cons]
    have : intervalStep ⟨ivs, cur, q⟩ (k, g) = ⟨ivs, cur ++ [k], q⟩ := by
      unfold intervalStep
      dsimp only
      rw [if_pos (Or.inr hg), hg]
    rw [this, ih (fun g' hg' => hrun g' (List.mem_cons_of_mem _ hg')), List.length_cons, List.range'_succ]
    simp

/-- neighbouring gates act on different lists of lines -/
def Alternating (l : List PInstr) : Prop :=
  List.IsChain (fun a b : PInstr => a.target.lines ≠ b.target.lines) l

theorem intervals_alt (pre : List PInstr) (hne : ∀ g ∈ pre, g.target.lines ≠ []) (hc : Alternating pre) (k : Nat)
    (ivs : List (List Nat)) (hivs : ∀ iv ∈ ivs, iv.length ≤ 1) (cur : List Nat) (hcur : cur.length ≤ 1) (t : List Int)
    (ht : t ≠ []) (hfirst : ∀ g, pre.head? = some g → g.target.lines ≠ t) :
    ∃ ivs' cur' t', (enum k pre).foldl intervalStep ⟨ivs, cur, t⟩ = ⟨ivs', cur', t'⟩ ∧
      (∀ iv ∈ ivs', iv.length ≤ 1) ∧ cur'.length ≤ 1 ∧ t' ≠ [] ∧
      t' = ((pre.getLast?).map fun g => g.target.lines).getD t := by
  induction pre generalizing k ivs cur t with
  | nil => exact ⟨ivs, cur, t, rfl, hivs, hcur, ht, rfl⟩
  | cons g pre ih =>
    have h1 : intervalStep ⟨ivs, cur, t⟩ (k, g) = ⟨ivs ++ [cur], [k], g.target.lines⟩ := by
      unfold intervalStep
      dsimp only
      rw [if_neg]
      rintro (h | h)
      · exact ht (List.length_eq_zero_iff.1 h)
      · exact hfirst g rfl h
    obtain ⟨ivs', cur', t', e, h2, h3, h4, h5⟩ := ih (fun g' hg' => hne g' (List.mem_cons_of_mem _ hg')) hc.tail (k + 1)
      (ivs ++ [cur]) (by
        intro iv hiv
        rcases List.mem_append.1 hiv with h | h
        · exact hivs iv h
        · rw [List.mem_singleton.1 h]; exact hcur) [k] (by simp) g.target.lines (hne g (by simp)) (by
        intro g' hg'
        cases pre with
        | nil => cases hg'
        | cons b pre =>
          injection hg' with hg'
          subst hg'
          exact (List.isChain_cons_cons.1 hc).1.symm)
    refine ⟨ivs', cur', t', ?_, h2, h3, h4, ?_⟩
    · rw [enum, List.foldl_cons, h1, e]
    · rw [h5]
      cases pre with
      | nil => rfl
      | cons b pre => rw [List.getLast?_cons_cons, List.getLast?_cons]; rfl

/-- the intervals of a circuit whose only run of neighbouring gates on the same line is at the end -/
theorem findIntervals_tail (pre run : List PInstr) (q : List Int) (hne : ∀ g ∈ pre, g.target.lines ≠ [])
    (hc : Alternating pre) (hlast : ∀ g, pre.getLast? = some g → g.target.lines ≠ q) (hrun : ∀ g ∈ run, g.target.lines = q)
    (hr : run ≠ []) :
    ∃ ivs, findIntervals (pre ++ run) = ivs ++ [List.range' pre.length run.length] ∧ ∀ iv ∈ ivs, iv.length ≤ 1 := by
  obtain ⟨r, run, rfl⟩ := List.exists_cons_of_ne_nil hr
  have hr0 := hrun r (by simp)
  have hrest : ∀ g ∈ run, g.target.lines = q := fun g' hg' => hrun g' (List.mem_cons_of_mem _ hg')
  have hfin : ∀ ivs : List (List Nat), (∀ iv ∈ ivs, iv.length ≤ 1) → ∀ st : IntervalSt,
      intervalStep ((enum 0 pre).foldl intervalStep ⟨[], [], []⟩) (pre.length, r) = ⟨ivs, [pre.length], q⟩ →
      ∃ ivs, findIntervals (pre ++ r :: run) = ivs ++ [List.range' pre.length (r :: run).length] ∧
        ∀ iv ∈ ivs, iv.length ≤ 1 := by
    intro ivs hivs _ e
    refine ⟨ivs, ?_, hivs⟩
    unfold findIntervals
    rw [enum_append, Nat.zero_add, List.foldl_append, enum, List.foldl_cons, e, intervals_run q run hrest]
    dsimp only
    rw [if_pos (by simp), List.length_cons, List.range'_succ]
    rfl
  cases pre with
  | nil =>
    refine hfin [] (by simp) ⟨[], [], []⟩ ?_
    rw [enum, List.foldl_nil, intervalStep_first, hr0]; rfl
  | cons g pre =>
    have hg0 := hne g (by simp)
    have h1 : intervalStep ⟨[], [], []⟩ (0, g) = ⟨[], [0], g.target.lines⟩ := by
      rw [intervalStep_first]; rfl
    obtain ⟨ivs', cur', t', e, h2, h3, h4, h5⟩ := intervals_alt pre (fun g' hg' => hne g' (List.mem_cons_of_mem _ hg'))
      hc.tail 1 [] (by simp) [0] (by simp) g.target.lines hg0 (by
        intro g' hg'
        cases pre with
        | nil => cases hg'
        | cons b pre =>
          injection hg' with hg'
          subst hg'
          exact (List.isChain_cons_cons.1 hc).1.symm)
    have ht' : t' ≠ q := by
      rw [h5]
      cases pre with
      | nil => exact hlast g rfl
      | cons b pre =>
        rw [List.getLast?_cons]
        refine hlast _ ?_
        rw [List.getLast?_cons_cons, List.getLast?_cons]
    refine hfin (ivs' ++ [cur']) ?_ ⟨[], [], []⟩ ?_
    · intro iv hiv
      rcases List.mem_append.1 hiv with h | h
      · exact h2 iv h
      · rw [List.mem_singleton.1 h]; exact h3
    · rw [enum, List.foldl_cons, h1, e]
      unfold intervalStep
      dsimp only
      rw [hr0, if_neg]
      rintro (h | h)
      · exact h4 (List.length_eq_zero_iff.1 h)
      · exact ht' h.symm

theorem removeZ_short (l new : List PInstr) (back : Bool) (ivs : List (List Nat)) (h : ∀ iv ∈ ivs, iv.length ≤ 1) :
    ivs.foldlM (removeZStep l back) new = .ok new := by
  induction ivs with
  | nil => rfl
  | cons iv ivs ih =>
    rw [List.foldlM_cons]
    have : removeZStep l back new iv = .ok new := by
      unfold removeZStep
      rw [if_neg (by have := h iv (by simp); omega)]
    rw [this]
    exact ih fun iv' h' => h iv' (List.mem_cons_of_mem _ h')

/-- the operator of a run of rotations on one line -/
theorem sem_run (h : GateSemantics d sem) (i : Fin n) (l : List PInstr) (hl : ∀ g ∈ l, PhaseGate (d i) (i : Nat) g) :
    circuitOp sem l = embed1 (X := LvOf d) i (circuitOp (lineOp (d i)) l) := by
  induction l with
  | nil => rw [circuitOp_nil, circuitOp_nil]; exact (embed1_one (X := LvOf d) i).symm
  | cons g l ih =>
    rw [circuitOp_cons, circuitOp_cons, ih fun g' hg' => hl g' (List.mem_cons_of_mem _ hg')]
    obtain ⟨ht, hd, hc, hdag, hk⟩ := hl g (by simp)
    obtain ⟨M, h1, h2, _⟩ := h.1 g i ht
    have hA : ∃ A, arrayOf g = some (.ok A) := by
      rcases hk with ⟨p, hp, ha, hb, hlt⟩ | ⟨p, hp, ha, hb⟩
      · obtain ⟨a, b, hgl⟩ := goodLevels_of ha hb hlt
        obtain ⟨A, hA, _⟩ := rArray_ok hgl
        exact ⟨A, by unfold arrayOf; rw [hp, hd]; dsimp only; rw [hA]⟩
      · obtain ⟨A, hA, _⟩ := virtRz_one_line hd hp ⟨p.levA.toNat, by omega⟩ (by simp; omega)
        exact ⟨A, hA⟩
    obtain ⟨A, hA⟩ := hA
    have : lineOp (d i) g = M := by
      rw [h1 A hA]
      unfold lineOp
      rw [hA]
    rw [h2 hc, this]
    exact embed1_mul (X := LvOf d) i _ _

/-- C30 for circuits whose only run of neighbouring gates on the same target is a run of rotations and virtual Z
rotations at the very end: in both directions the pass succeeds and keeps the operator. Missing: a run anywhere else,
for which the claim is false. -/
theorem C30_partial (h : GateSemantics d sem) (i : Fin n) (pre run : List PInstr) (hr : run ≠ [])
    (hne : ∀ g ∈ pre, g.target.lines ≠ []) (hc : Alternating pre)
    (hlast : ∀ g, pre.getLast? = some g → g.target.lines ≠ [((i : Nat) : Int)])
    (hrun : ∀ g ∈ run, PhaseGate (d i) (i : Nat) g) (back : Bool) :
    ∃ l', removeZ (pre ++ run) back = .ok l' ∧ circuitOp sem l' = circuitOp sem (pre ++ run) := by
  obtain ⟨ivs, e, hivs⟩ := findIntervals_tail pre run [((i : Nat) : Int)] hne hc hlast
    (fun g hg => by rw [(hrun g hg).1]; rfl) hr
  unfold removeZ
  rw [e, List.foldlM_append, removeZ_short _ _ _ _ hivs]
  change ∃ l', List.foldlM (removeZStep (pre ++ run) back) (pre ++ run) [List.range' pre.length run.length] = _ ∧ _
  rw [List.foldlM_cons]
  by_cases h1 : run.length ≤ 1
  · refine ⟨pre ++ run, ?_, rfl⟩
    unfold removeZStep
    rw [if_neg (by simpa using h1)]
    rfl
  · obtain ⟨rots, zs, hp, hop, hgates, _⟩ := C29_propagate (d i) (i : Nat) run hr hrun back
    have hlen : 1 < run.length := by omega
    have hseq : ((pre ++ run).take (pre.length + run.length)).drop pre.length = run := by
      rw [List.take_of_length_le (by simp), List.drop_left]
    refine ⟨pre ++ (if back then zs ++ rots else rots ++ zs), ?_, ?_⟩
    · rw [removeZStep_range (pre ++ run) (pre ++ run) back pre.length run.length hlen (by simp) rots zs (by rw [hseq, hp])]
      rw [List.take_left, List.drop_of_length_le (by simp), List.append_nil]
      rfl
    · rw [circuitOp_append, circuitOp_append]
      congr 1
      rw [sem_run h i run hrun, sem_run h i, hop]
      intro g hg
      apply hgates
      cases back
      · exact hg
      · rw [if_pos rfl] at hg
        rw [List.mem_append] at hg ⊢
        exact hg.symm

/-- hypotheses are met: an entangling gate, a gate on line 0, then a run on line 1 -/
example : Alternating [(⟨.other 0, .many [0, 1], 0, none, false⟩ : PInstr), ⟨.other 1, .one 0, 2, none, false⟩] ∧
    ∀ g ∈ [qubitR 1 1 0, qubitR 1 2 1], PhaseGate 2 1 g := by
  refine ⟨?_, ?_⟩
  · unfold Alternating
    simp [Target.lines]
  · intro g hg
    simp only [List.mem_cons, List.not_mem_nil, or_false] at hg
    rcases hg with rfl | rfl <;> exact qubitR_phase _ _ _

theorem quarter_sq : quarter * quarter = !![0, -I; -I, 0] := by
  obtain ⟨q00, q11, q01, q10⟩ := quarter_entries
  have hsq := pi4_norm
  ext r c
  fin_cases r <;> fin_cases c <;> simp [mul_apply, Fin.sum_univ_two, q00, q01, q10, q11, -ofReal_div]
  · linear_combination ((Real.sqrt 2 / 2 : ℝ) : ℂ) * ((Real.sqrt 2 / 2 : ℝ) : ℂ) * I_mul_I
  · linear_combination -2 * I * hsq
  · linear_combination -2 * I * hsq
  · linear_combination ((Real.sqrt 2 / 2 : ℝ) : ℂ) * ((Real.sqrt 2 / 2 : ℝ) : ℂ) * I_mul_I

theorem ground_mulVec (A : Matrix (Reg fun _ : Fin 2 => 2) (Reg fun _ : Fin 2 => 2) ℂ) (x : Reg fun _ : Fin 2 => 2) :
    (A *ᵥ ground _) x = A x (fun _ => (0 : Fin 2)) := by
  have : ground (fun _ : Fin 2 => 2) = Pi.single (fun _ => (0 : Fin 2)) 1 := by
    funext y
    unfold ground
    rw [Pi.single_apply]
    refine if_congr ?_ rfl rfl
    constructor
    · intro h; funext i; exact Fin.ext (h i)
    · intro h i; rw [h]; rfl
  rw [this, mulVec_single_one]
  rfl

/-- the circuit with two quarter turns on qubit 0 followed by two quarter turns on qubit 1 -/
noncomputable def twoRuns : List PInstr :=
  [qubitR 0 (Real.pi / 2) 0, qubitR 0 (Real.pi / 2) 0, qubitR 1 (Real.pi / 2) 0, qubitR 1 (Real.pi / 2) 0]

/-- C30 is false. The new run is appended at the end and later positions are taken from the old list, so for this
circuit, which flips both qubits, the pass (in its default direction) returns one that applies the run on qubit 1 twice:
the outcome `11`, certain before, becomes impossible. -/
theorem C30_two_runs_violated :
    ∃ l', removeZ twoRuns true = .ok l' ∧ ∀ sem, GateSemantics (fun _ : Fin 2 => 2) sem →
      ‖(circuitOp sem twoRuns *ᵥ ground _) (fun _ => 1)‖ = 1 ∧ ‖(circuitOp sem l' *ᵥ ground _) (fun _ => 1)‖ = 0 := by
  have hph : ∀ q : Int, ∀ g ∈ [qubitR q (Real.pi / 2) 0, qubitR q (Real.pi / 2) 0], PhaseGate 2 q g := by
    intro q g hg
    simp only [List.mem_cons, List.not_mem_nil, or_false, or_self] at hg
    rw [hg]; exact qubitR_phase _ _ _
  obtain ⟨rots0, zs0, hp0, hop0, hg0, _, hz0⟩ := C29_propagate 2 0 _ (List.cons_ne_nil _ _) (hph 0) true
  obtain ⟨rots1, zs1, hp1, hop1, hg1, _, hz1⟩ := C29_propagate 2 1 _ (List.cons_ne_nil _ _) (hph 1) true
  rw [if_pos rfl] at hop0 hop1
  have hlen : zs0.length = 2 := by rw [← hz0.length_eq]; rfl
  obtain ⟨za, zb, rfl⟩ : ∃ za zb, zs0 = [za, zb] := List.length_eq_two.1 hlen
  refine ⟨[qubitR 1 (Real.pi / 2) 0, qubitR 1 (Real.pi / 2) 0] ++ rots0 ++ (zs1 ++ rots1), ?_, ?_⟩
  · have hiv : findIntervals twoRuns = [List.range' 0 2, List.range' 2 2] := rfl
    unfold removeZ
    rw [hiv, List.foldlM_cons, removeZStep_range twoRuns twoRuns true 0 2 (by decide) (by simp [twoRuns]) rots0 [za, zb]
      hp0]
    change List.foldlM (removeZStep twoRuns true) ([qubitR 1 (Real.pi / 2) 0, qubitR 1 (Real.pi / 2) 0, za, zb] ++ rots0) _ = _
    rw [List.foldlM_cons, removeZStep_range twoRuns _ true 2 2 (by decide) (by simp) rots1 zs1 hp1]
    rfl
  · intro sem h
    have hrun : ∀ i : Fin 2, circuitOp sem [qubitR (i : Nat) (Real.pi / 2) 0, qubitR (i : Nat) (Real.pi / 2) 0] =
        embed1 (X := LvOf fun _ : Fin 2 => 2) i (quarter * quarter) := by
      intro i
      have e := embed1_mul (X := LvOf fun _ : Fin 2 => 2) i quarter quarter
      rw [circuitOp_cons, circuitOp_cons, circuitOp_nil, one_mul, sem_qubitR h i]
      exact e
    have hneg : (quarter * quarter) * (quarter * quarter) = -1 := by
      rw [quarter_sq]
      ext r c
      fin_cases r <;> fin_cases c <;> simp [mul_apply, Fin.sum_univ_two]
    constructor
    · have e : circuitOp sem twoRuns = embed1 (X := LvOf fun _ : Fin 2 => 2) 1 (quarter * quarter) *
          embed1 (X := LvOf fun _ : Fin 2 => 2) 0 (quarter * quarter) := by
        have : twoRuns = [qubitR ((0 : Fin 2) : Nat) (Real.pi / 2) 0, qubitR ((0 : Fin 2) : Nat) (Real.pi / 2) 0] ++
          [qubitR ((1 : Fin 2) : Nat) (Real.pi / 2) 0, qubitR ((1 : Fin 2) : Nat) (Real.pi / 2) 0] := rfl
        rw [this, circuitOp_append, hrun, hrun]
      rw [e, ← mulVec_mulVec, embed1_mulVec]
      change ‖∑ k : Fin 2, (quarter * quarter) 1 k * _‖ = 1
      rw [Fin.sum_univ_two, ground_mulVec, ground_mulVec, quarter_sq, embed1, embed1, if_pos, if_neg]
      · change ‖(!![0, -I; -I, 0] : Matrix (Fin 2) (Fin 2) ℂ) 1 0 * (!![0, -I; -I, 0] : Matrix (Fin 2) (Fin 2) ℂ) 1 0 + _ * 0‖ = 1
        simp
      · intro hh
        have := hh 1 (by decide)
        rw [Function.update_self] at this
        exact absurd this (by decide)
      · intro i hi
        have : i = 1 := by omega
        subst this
        rw [Function.update_self]
    · have e : circuitOp sem ([qubitR 1 (Real.pi / 2) 0, qubitR 1 (Real.pi / 2) 0] ++ rots0 ++ (zs1 ++ rots1)) =
          - circuitOp sem rots0 := by
        have h1 := hrun 1
        have h2 : circuitOp sem (zs1 ++ rots1) = embed1 (X := LvOf fun _ : Fin 2 => 2) 1 (quarter * quarter) := by
          rw [sem_run h 1 _ (by
            intro g hg
            apply hg1
            rw [List.mem_append] at hg ⊢
            exact hg.symm)]
          have : circuitOp (lineOp 2) (zs1 ++ rots1) = quarter * quarter := by
            rw [hop1, circuitOp_cons, circuitOp_cons, circuitOp_nil, one_mul, qubitR_op]; rfl
          exact congrArg _ this
        have h3 := sem_run h 0 rots0 (fun g hg => hg0 g (List.mem_append_left _ hg))
        have h4 := embed1_commute (X := LvOf fun _ : Fin 2 => 2) (1 : Fin 2) 0 (by decide) (quarter * quarter)
          (circuitOp (lineOp 2) rots0)
        have h5 := embed1_mul (X := LvOf fun _ : Fin 2 => 2) (1 : Fin 2) (quarter * quarter) (quarter * quarter)
        have h6 : embed1 (X := LvOf fun _ : Fin 2 => 2) (1 : Fin 2) (-1 : Matrix (Fin 2) (Fin 2) ℂ) = -1 := by
          rw [← embed1_one (X := LvOf fun _ : Fin 2 => 2) (1 : Fin 2)]
          ext x y
          rw [Matrix.neg_apply, embed1, embed1]
          split_ifs
          · rfl
          · simp
        rw [circuitOp_append, h2, circuitOp_append]
        change _ * (_ * circuitOp sem [qubitR ((1 : Fin 2) : Nat) (Real.pi / 2) 0, qubitR ((1 : Fin 2) : Nat) (Real.pi / 2) 0]) = _
        rw [h1, h3, ← mul_assoc]
        refine (congrArg (· * _) h4).trans ?_
        rw [mul_assoc]
        refine (congrArg (_ * ·) h5).trans ?_
        rw [hneg]
        refine (congrArg (_ * ·) h6).trans ?_
        simp
      rw [e, ground_mulVec, sem_run h 0 rots0 (fun g hg => hg0 g (List.mem_append_left _ hg)), Matrix.neg_apply, embed1,
        if_neg]
      · simp
      · intro hh
        exact absurd (hh 1 (by decide)) (by decide)

/-- Two neighbouring entangling gates on the same lines make the pass raise. -/
theorem C30_entangling_raises (k k' : Nat) (p q : Int) (back : Bool) :
    removeZ [⟨.other k, .many [p, q], 0, none, false⟩, ⟨.other k', .many [p, q], 0, none, false⟩] back =
      .error .typeError := by
  unfold removeZ findIntervals
  simp [enum, intervalStep, Target.lines, removeZStep, propagateZ]

end Qudits
