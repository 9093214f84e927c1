import Verif.Lemmas.LawChannels
import Verif.Lemmas.ShotsNorm
/- Lemmas for C86: the mean over the errors of a noisy circuit. -/
namespace Qudits.Shots
open Spec Matrix Complex NoisyFactory DD
variable {n : Nat} {d : Fin n → Nat}

/-! ### the operators of error gates, as a function -/

theorem errorOp_unique {e : NoisyInstr} {M N : DensityOp d} (h1 : ErrorOp d e M) (h2 : ErrorOp d e N) : M = N := by
  cases h1 with
  | x q =>
    generalize hq : ((q : Nat) : Int) = q' at h2
    cases h2 with
    | x r =>
      obtain rfl : q = r := Fin.ext (by omega)
      rfl
  | z q =>
    generalize hq : ((q : Nat) : Int) = q' at h2
    cases h2 with
    | z r =>
      obtain rfl : q = r := Fin.ext (by omega)
      rfl
  | noisex q a b x y hab ha hb =>
    generalize hq : ((q : Nat) : Int) = q' at h2
    cases h2 with
    | noisex r a' b' _ _ hab' ha' hb' =>
      obtain rfl : q = r := Fin.ext (by omega)
      obtain rfl : a = a' := Fin.ext (by omega)
      obtain rfl : b = b' := Fin.ext (by omega)
      rfl
  | noisey q a b x y hab ha hb =>
    generalize hq : ((q : Nat) : Int) = q' at h2
    cases h2 with
    | noisey r a' b' _ _ hab' ha' hb' =>
      obtain rfl : q = r := Fin.ext (by omega)
      obtain rfl : a = a' := Fin.ext (by omega)
      obtain rfl : b = b' := Fin.ext (by omega)
      rfl
  | noisez q l =>
    generalize hq : ((q : Nat) : Int) = q' at h2
    generalize hl : ((l : Nat) : Int) = l' at h2
    cases h2 with
    | noisez r l2 =>
      obtain rfl : q = r := Fin.ext (by omega)
      obtain rfl : l = l2 := Fin.ext (by omega)
      rfl

open Classical in
/-- the operator of an error gate -/
noncomputable def sem (d : Fin n → Nat) (e : NoisyInstr) : DensityOp d := if h : ∃ M, ErrorOp d e M then choose h else 1

theorem sem_eq {e : NoisyInstr} {M : DensityOp d} (h : ErrorOp d e M) : sem d e = M := by
  unfold sem
  rw [dif_pos ⟨M, h⟩]
  exact errorOp_unique (Classical.choose_spec _) h

def isOrig : NoisyInstr → Bool
  | .orig _ => true
  | _ => false

/-- the operators of a noisy circuit -/
noncomputable def semList (d : Fin n → Nat) : List NoisyInstr → List (DensityOp d) → List (DensityOp d)
  | [], _ => []
  | .orig _ :: l, M :: Ms => M :: semList d l Ms
  | .orig _ :: _, [] => []
  | e :: l, Ms => sem d e :: semList d l Ms

theorem semList_cons {e : NoisyInstr} (he : isOrig e = false) (l : List NoisyInstr) (Ms : List (DensityOp d)) : semList d (e :: l) Ms = sem d e :: semList d l Ms := by
  cases e with
  | orig j => simp [isOrig] at he
  | _ => rfl

theorem semList_append : ∀ (es : List NoisyInstr) (_ : ∀ e ∈ es, isOrig e = false) (l : List NoisyInstr) (Ms : List (DensityOp d)),
    semList d (es ++ l) Ms = es.map (sem d) ++ semList d l Ms
  | [], _, l, Ms => rfl
  | e :: es, h, l, Ms => by
    rw [List.cons_append, semList_cons (h e (by simp)), semList_append es (fun e he => h e (by simp [he]))]
    rfl

theorem forall₂_sem {es : List NoisyInstr} {Es : List (DensityOp d)} (h : List.Forall₂ (ErrorOp d) es Es) : Es = es.map (sem d) := by
  induction h with
  | nil => rfl
  | cons h _ ih => rw [List.map_cons, ← ih, sem_eq h]

theorem noisyOps_sem {errs : Errors} {instrs : List Instr} {out : List NoisyInstr} (h : Interleaved (AllowedError (List.ofFn d) errs) instrs out) :
    ∀ {circ : List (Instr × Arr2 ℂ)} {Ms : List (DensityOp d)} {ops : List (Gate × Arr2 ℂ)}, circ.map Prod.fst = instrs →
      Operators d circ Ms → noisyOps (List.ofFn d) out (circ.map Prod.snd) = .ok ops →
      List.Forall₂ (fun op M => (∃ ls, Flagged d op.1 ls) ∧ HasOperator d op.1 op.2 M) ops (semList d out Ms) := by
  induction h with
  | nil =>
    intro circ Ms ops h1 _ h3
    cases h3
    exact .nil
  | cons i ins rest out hins _ ih =>
    intro circ Ms ops h1 h2 h3
    obtain _ | ⟨⟨i', A⟩, circ⟩ := circ
    · cases h1
    rw [List.map_cons, List.cons.injEq] at h1
    obtain ⟨rfl, h1⟩ := h1
    cases h2 with
    | @cons _ M _ Ms hM h2 =>
    obtain ⟨⟨ls, hf⟩, hop⟩ := hM
    rw [List.map_cons] at h3
    unfold noisyOps at h3
    obtain ⟨ops', hrest, h3⟩ := bindOk h3
    cases h3
    have key : ∀ (ins : List NoisyInstr) (ops' : List (Gate × Arr2 ℂ)), (∀ e ∈ ins, AllowedError (List.ofFn d) errs i' e) →
        noisyOps (List.ofFn d) (ins ++ out) (circ.map Prod.snd) = .ok ops' →
        List.Forall₂ (fun op M => (∃ ls, Flagged d op.1 ls) ∧ HasOperator d op.1 op.2 M) ops' (semList d (ins ++ out) Ms) := by
      intro ins
      induction ins with
      | nil =>
        intro ops' _ h
        exact ih h1 h2 h
      | cons e ins ihi =>
        intro ops' hall h
        have hne : ∀ j, e ≠ .orig j := by
          rintro j rfl
          exact allowed_not_orig (hall (.orig j) (by simp))
        rw [List.cons_append, noisyOps_cons hne] at h
        obtain ⟨op, he, h⟩ := bindOk h
        obtain ⟨ops'', hr, h⟩ := bindOk h
        cases h
        have := ihi ops'' (fun e he => hall e (by simp [he])) hr
        obtain ⟨M, m1, m2⟩ := allowed_op hf (hall e (by simp)) he
        rw [List.cons_append, semList_cons (by cases e <;> first | rfl | exact absurd rfl (hne _)), sem_eq m1]
        exact .cons m2 this
    unfold semList
    exact .cons ⟨⟨ls, hf⟩, hop⟩ (key ins ops' hins hrest)

/-! ### one draw -/

/-- the operators that an outcome adds -/
noncomputable def outOp (d : Fin n → Nat) (es : List NoisyInstr) : DensityOp d := (es.map (sem d)).reverse.prod

/-- the mean over the outcomes of one draw -/
noncomputable def siteChan (d : Fin n → Nat) (t : Site) (rho : DensityOp d) : DensityOp d :=
  ∑ k ∈ Finset.range t.ps.length, t.ps.getD k 0 • conjBy (outOp d (t.out k)) rho

theorem sem_x (q : Fin n) : sem d (.x ((q : Nat) : Int)) = embed1 (X := LvOf d) q (shiftM (d q)) := sem_eq (.x q)

theorem sem_z (q : Fin n) : sem d (.z ((q : Nat) : Int)) = embed1 (X := LvOf d) q (phaseM (d q)) := sem_eq (.z q)

theorem math_outOp (q : Fin n) (p : ℝ) (k : Nat) : outOp d ((mathSite (d q) p ((q : Nat) : Int)).out k) =
    embed1 (X := LvOf d) q (phaseM (d q) ^ (k % d q) * shiftM (d q) ^ (k / d q)) := by
  unfold outOp mathSite
  dsimp only
  rw [List.map_append, List.map_replicate, List.map_replicate, List.reverse_append, List.reverse_replicate, List.reverse_replicate, List.prod_append,
    List.prod_replicate, List.prod_replicate, sem_x, sem_z, embed1_pow, embed1_pow]
  exact embed1_mul (X := LvOf d) q (phaseM (d q) ^ (k % d q)) (shiftM (d q) ^ (k / d q))

theorem depolProbs_getD {m : Nat} (hm : 0 < m) (p : ℝ) {k : Nat} (hk : k < m * m) :
    (depolProbs m p).getD k 0 = p / m / m + if k = 0 then 1 - p / m / m * (m * m) else 0 := by
  unfold depolProbs
  cases k with
  | zero => simp; ring
  | succ k =>
    simp only [List.singleton_append, List.getD_cons_succ, Nat.succ_ne_zero, if_false, add_zero]
    rw [List.getD_eq_getElem?_getD, List.getElem?_replicate, if_pos (by omega)]
    rfl

theorem math_chan (q : Fin n) (hpos : 0 < d q) (p : ℝ) (rho : DensityOp d) : siteChan d (mathSite (d q) p ((q : Nat) : Int)) rho = depolarize q p rho := by
  unfold siteChan
  have hlen : (mathSite (d q) p ((q : Nat) : Int)).ps.length = d q * d q := depolProbs_length hpos p
  rw [hlen]
  have hd : (d q : ℝ) ≠ 0 := by exact_mod_cast hpos.ne'
  have h1 : ∀ k ∈ Finset.range (d q * d q), (mathSite (d q) p ((q : Nat) : Int)).ps.getD k 0 • conjBy (outOp d ((mathSite (d q) p ((q : Nat) : Int)).out k)) rho =
      (p / d q / d q) • conjBy (embed1 (X := LvOf d) q (phaseM (d q) ^ (k % d q) * shiftM (d q) ^ (k / d q))) rho +
        if k = 0 then (1 - p) • rho else 0 := by
    intro k hk
    rw [math_outOp]
    show (depolProbs (d q) p).getD k 0 • _ = _
    rw [depolProbs_getD hpos p (Finset.mem_range.1 hk), add_smul]
    congr 1
    split_ifs with h0
    · subst h0
      have e1 : conjBy (embed1 (X := LvOf d) q (phaseM (d q) ^ (0 % d q) * shiftM (d q) ^ (0 / d q))) rho = rho := by
        rw [Nat.zero_mod, Nat.zero_div, pow_zero, pow_zero, one_mul]
        have : embed1 (X := LvOf d) q (1 : Matrix (Fin (d q)) (Fin (d q)) ℂ) = 1 := embed1_one (X := LvOf d) q
        rw [this, conjBy_one]
      rw [e1]
      congr 2
      field_simp
    · rw [zero_smul]
  rw [Finset.sum_congr rfl h1, Finset.sum_add_distrib, ← Finset.smul_sum, sum_range_mul]
  have h2 : ∑ a ∈ Finset.range (d q), ∑ b ∈ Finset.range (d q),
      conjBy (embed1 (X := LvOf d) q (phaseM (d q) ^ ((a * d q + b) % d q) * shiftM (d q) ^ ((a * d q + b) / d q))) rho =
      ∑ a ∈ Finset.range (d q), ∑ b ∈ Finset.range (d q), conjBy (embed1 (X := LvOf d) q (phaseM (d q) ^ b * shiftM (d q) ^ a)) rho := by
    refine Finset.sum_congr rfl fun a _ => Finset.sum_congr rfl fun b hb => ?_
    have hb := Finset.mem_range.1 hb
    rw [Nat.mul_comm a, Nat.mul_add_mod, Nat.mod_eq_of_lt hb, Nat.mul_add_div hpos, Nat.div_eq_of_lt hb, add_zero]
  rw [h2, sum_weyl, smul_smul, Finset.sum_ite_eq' (Finset.range (d q * d q)) 0 fun _ => (1 - p) • rho, if_pos (Finset.mem_range.2 (Nat.mul_pos hpos hpos))]
  unfold depolarize
  rw [add_comm]
  congr 2
  field_simp

theorem outOp_nil : outOp d [] = 1 := rfl

theorem outOp_one (e : NoisyInstr) : outOp d [e] = sem d e := by
  unfold outOp
  simp

theorem sign_twoLevel {m : Nat} {a b : Fin m} (hab : a ≠ b) :
    (fun i j : Fin m => if i = j then (if i = b then -1 else 1) else 0) = twoLevel a b !![(1 : ℂ), 0; 0, -1] := by
  funext i j
  unfold twoLevel
  simp only [of_apply, cons_val', cons_val_zero, cons_val_one, cons_val_fin_one]
  by_cases h1 : i = a
  · subst h1
    rw [if_pos rfl, if_neg hab]
    simp only [eq_comm]
    split_ifs <;> simp_all
  · rw [if_neg h1]
    by_cases h2 : i = b
    · subst h2
      simp only [eq_comm]
      split_ifs <;> simp_all
    · rw [if_neg h2]
      simp [h2]

theorem sem_noisez (q : Fin n) (l : Fin (d q)) : sem d (.noisez ((q : Nat) : Int) ((l : Nat) : Int)) = diagonal fun x : Reg d => if x q = l then -1 else 1 := by
  rw [sem_eq (.noisez q l)]
  funext x y
  unfold embed1
  rw [diagonal_apply]
  by_cases hxy : x = y
  · subst hxy
    simp
  · rw [if_neg hxy]
    by_cases h1 : ∀ i, i ≠ q → x i = y i
    · rw [if_pos h1]
      dsimp only
      rw [if_neg]
      intro h2
      exact hxy (funext fun i => if hi : i = q then by subst hi; exact h2 else h1 i hi)
    · rw [if_neg h1]

theorem sub_chan (q : Fin n) (a b : Fin (d q)) (hab : a < b) (noise : Noise ℝ) (rho : DensityOp d) :
    siteChan d (subSite ((q : Nat) : Int) ((((a : Nat) : Int), ((b : Nat) : Int)), noise)) rho = pauliNoise q a b noise.depolarizing rho := by
  have hlt : ((a : Nat) : Int) < ((b : Nat) : Int) := by exact_mod_cast hab
  have hx := sem_eq (.noisex (d := d) q a b _ _ hab (min_eq_left hlt.le).symm (max_eq_right hlt.le).symm)
  have hy := sem_eq (.noisey (d := d) q a b _ _ hab (min_eq_left hlt.le).symm (max_eq_right hlt.le).symm)
  have hz : sem d (.noisez ((q : Nat) : Int) ((b : Nat) : Int)) = embed1 (X := LvOf d) q (twoLevel a b !![1, 0; 0, -1]) := by
    rw [sem_eq (.noisez q b)]
    exact congrArg (embed1 (X := LvOf d) q) (sign_twoLevel hab.ne)
  unfold siteChan subSite subspaceProbs pauliNoise
  simp only [List.length_append, List.length_singleton, List.length_replicate, Finset.sum_range_succ, Finset.range_zero, Finset.sum_empty, zero_add]
  simp only [List.replicate, List.cons_append, List.nil_append, List.getD_cons_zero, List.getD_cons_succ, if_true, if_false, OfNat.zero_ne_ofNat, zero_ne_one, OfNat.one_ne_ofNat,
    Nat.reduceEqDiff, outOp_nil, outOp_one, conjBy_one, hx, hy, hz, smul_add]
  rw [show (1 : ℝ) - 3 * (noise.depolarizing / 4) = 1 - 3 * noise.depolarizing / 4 by ring]
  abel

theorem level_chan (q : Fin n) (l : Fin (d q)) (p : ℝ) (rho : DensityOp d) :
    siteChan d (levelSite ((q : Nat) : Int) p ((l : Nat) : Int)) rho = dephase q l p rho := by
  unfold siteChan levelSite dephase
  simp only [List.length_cons, List.length_nil, zero_add, Finset.sum_range_succ, Finset.range_zero, Finset.sum_empty]
  simp only [List.getD_cons_zero, List.getD_cons_succ, if_true, one_ne_zero, if_false, outOp_nil, outOp_one, conjBy_one, sem_noisez]
  rw [add_comm]

/-! ### one gate -/

theorem below_line (q : Fin n) : below? n ((q : Nat) : Int) = some q := by
  unfold below?
  rw [dif_pos ⟨by omega, by exact_mod_cast q.2⟩]
  simp

theorem filterMap_lines : ∀ (qs : List Int), (∀ q ∈ qs, ∃ k : Fin n, q = ((k : Nat) : Int)) →
    ((qs.filterMap (below? n)).map fun k : Fin n => ((k : Nat) : Int)) = qs
  | [], _ => rfl
  | q :: qs, h => by
    obtain ⟨k, rfl⟩ := h q (by simp)
    rw [List.filterMap_cons_some (below_line k), List.map_cons, filterMap_lines qs fun q hq => h q (by simp [hq])]

theorem affected_modeLines {i : Instr} {mode : String} {qs : List Int} (h : affected i mode = .ok qs) : qs = modeLines i mode := by
  have href : ∀ l, i.gate.referenceLines = .ok l → l = i.gate.controlLines ++ i.gate.target.lines := by
    intro l h
    unfold Gate.referenceLines at h
    dsimp only at h
    split_ifs at h
    exact (Except.ok.inj h).symm
  have hdef : modeLines i mode = if mode = "local" ∨ mode = "nonlocal" then i.gate.controlLines ++ i.gate.target.lines
    else if mode = "all" then (List.range i.gate.dims.length).map fun k : Nat => (k : Int)
    else if mode = "control" then i.gate.target.lines.take 1
    else if mode = "target" then (if i.gate.gateType = .single then i.gate.target.lines.take 1 else (i.gate.controlLines ++ i.gate.target.lines).drop 1)
    else [] := rfl
  rw [hdef]
  unfold affected at h
  by_cases h1 : mode = "local"
  · rw [if_pos h1] at h
    rw [if_pos (.inl h1)]
    exact href _ h
  rw [if_neg h1] at h
  by_cases h2 : mode = "all"
  · rw [if_pos h2] at h
    rw [if_neg (by subst h2; decide), if_pos h2]
    exact (Except.ok.inj h).symm
  rw [if_neg h2] at h
  by_cases h3 : mode = "nonlocal"
  · rw [if_pos h3] at h
    split_ifs at h
    rw [if_pos (.inr h3)]
    exact href _ h
  rw [if_neg h3] at h
  rw [if_neg (by tauto), if_neg h2]
  by_cases h4 : mode = "control"
  · rw [if_pos h4] at h
    rw [if_pos h4]
    split_ifs at h
    cases hg : i.gate.target with
    | one q => rw [hg] at h; cases h
    | many l =>
      rw [hg] at h
      exact (Except.ok.inj h).symm
  rw [if_neg h4] at h
  rw [if_neg h4]
  by_cases h5 : mode = "target"
  · rw [if_pos h5] at h
    rw [if_pos h5]
    by_cases ht : i.gate.gateType = .single
    · rw [if_neg (by simpa using ht)] at h
      rw [if_pos ht]
      cases hg : i.gate.target with
      | one q => rw [hg] at h; exact (Except.ok.inj h).symm
      | many l => rw [hg] at h; cases h
    · rw [if_pos ht] at h
      rw [if_neg ht]
      obtain ⟨l, h6, h7⟩ := bindOk h
      rw [← href l h6]
      exact (Except.ok.inj h7).symm
  · rw [if_neg h5] at h
    cases h

theorem rectify_entries {m m' : SubspaceNoise ℝ} {i : Instr} (h : rectify m i = .ok m') : m' = noiseEntries m i := by
  obtain ⟨g, t, lev⟩ := i
  unfold rectify at h
  unfold noiseEntries
  rcases m with _ | ⟨⟨k, n⟩, _ | ⟨k', m⟩⟩ <;> rcases lev with _ | ⟨x, y⟩
  · cases h; rfl
  · cases h; rfl
  · cases h; rfl
  · simp only [needsCorrection, decide_eq_true_eq] at h
    dsimp only
    split_ifs at h ⊢ with hk
    · obtain ⟨_, rfl, _⟩ := SubspaceNoise.addNoise_ok h
      simp
    · cases h
      rfl
  · cases h; rfl
  · simp only [needsCorrection, Bool.false_eq_true, if_false] at h
    cases h
    rfl

/-- several draws -/
noncomputable def chain (d : Fin n → Nat) (ts : List Site) (rho : DensityOp d) : DensityOp d := ts.foldl (fun rho t => siteChan d t rho) rho

theorem chain_append (a b : List Site) (rho : DensityOp d) : chain d (a ++ b) rho = chain d b (chain d a rho) := by
  unfold chain
  rw [List.foldl_append]

theorem chain_flatMap {α : Type} (f : α → List Site) (g : α → DensityOp d → DensityOp d) : ∀ (l : List α), (∀ a ∈ l, ∀ rho, chain d (f a) rho = g a rho) →
    ∀ rho, chain d (l.flatMap f) rho = l.foldl (fun rho a => g a rho) rho
  | [], _, _ => rfl
  | a :: l, h, rho => by
    rw [List.flatMap_cons, chain_append, h a (by simp), List.foldl_cons, chain_flatMap f g l fun b hb => h b (by simp [hb])]

theorem chain_map {α : Type} (f : α → Site) (g : α → DensityOp d → DensityOp d) (l : List α) (h : ∀ a ∈ l, ∀ rho, siteChan d (f a) rho = g a rho)
    (rho : DensityOp d) : chain d (l.map f) rho = l.foldl (fun rho a => g a rho) rho := by
  rw [← flatMap_one]
  exact chain_flatMap (fun a => [f a]) g l h rho

theorem others_fin (m : Nat) (l : Int × Int) : others m l =
    ((List.finRange m).filter fun k : Fin m => ((k : Nat) : Int) ≠ l.1 ∧ ((k : Nat) : Int) ≠ l.2).map fun k : Fin m => ((k : Nat) : Int) := by
  unfold others
  rw [← List.map_coe_finRange_eq_range, List.map_map, List.filter_map]
  rfl

/-- the draws of one entry of a noise model give the channel of this entry -/
theorem entry_chan (hpos : ∀ i, 0 < d i) {i : Instr} {ls : List (Fin n)} (hf : Flagged d i.gate ls) {mode : String} {o : NoiseObj ℝ} (hm : ModeFits i mode)
    (hl : LevelsFit (List.ofFn d) i mode o) : ∃ ts, (∀ rng s, applyModeP rng (List.ofFn d) i s (mode, o) = runSites rng ts s) ∧
      (∀ t ∈ ts, ∀ k, ∀ e ∈ t.out k, isOrig e = false) ∧ (∀ t ∈ ts, t.ps.sum = 1) ∧ ∀ rho, chain d ts rho = entryChannel d i (mode, o) rho := by
  obtain ⟨qs, info, hq, hsel, hline, hi, hr, hrun⟩ := applyModeP_sites hpos hf hm hl
  refine ⟨_, hrun, ?_, ?_, ?_⟩
  · intro t ht k e he
    rcases List.mem_append.1 ht with ht | ht
    · obtain ⟨q, _, ht⟩ := List.mem_flatMap.1 ht
      cases info with
      | math noise =>
        simp only [depolSites, List.mem_singleton] at ht
        subst ht
        simp only [mathSite, List.mem_append, List.mem_replicate] at he
        rcases he with ⟨-, rfl⟩ | ⟨-, rfl⟩ <;> rfl
      | sub m =>
        obtain ⟨x, _, rfl⟩ := List.mem_map.1 ht
        simp only [subSite] at he
        split_ifs at he
        all_goals simp only [List.mem_singleton, List.not_mem_nil] at he
        all_goals subst he; rfl
    · obtain ⟨q, _, ht⟩ := List.mem_flatMap.1 ht
      cases info with
      | math noise => simp [dephaseSites] at ht
      | sub m =>
        obtain ⟨x, _, ht⟩ := List.mem_flatMap.1 ht
        obtain ⟨y, _, rfl⟩ := List.mem_map.1 ht
        simp only [levelSite] at he
        split_ifs at he
        all_goals simp only [List.mem_singleton, List.not_mem_nil] at he
        all_goals subst he; rfl
  · intro t ht
    rcases List.mem_append.1 ht with ht | ht
    · obtain ⟨q, hq, ht⟩ := List.mem_flatMap.1 ht
      cases info with
      | math noise =>
        simp only [depolSites, List.mem_singleton] at ht
        subst ht
        exact depolProbs_sum (hr q hq) _
      | sub m =>
        obtain ⟨x, _, rfl⟩ := List.mem_map.1 ht
        simp [subSite, subspaceProbs]
        ring
    · obtain ⟨q, _, ht⟩ := List.mem_flatMap.1 ht
      cases info with
      | math noise => simp [dephaseSites] at ht
      | sub m =>
        obtain ⟨x, _, ht⟩ := List.mem_flatMap.1 ht
        obtain ⟨y, _, rfl⟩ := List.mem_map.1 ht
        simp [levelSite]
  · intro rho
    have hlines := affected_modeLines hq
    have hmap := filterMap_lines qs hline
    rw [hlines] at hmap
    rw [chain_append]
    rw [← hlines] at hmap
    unfold entryChannel
    dsimp only
    rw [← hlines]
    set fs := qs.filterMap (below? n) with hfs
    have hr' : ∀ k ∈ fs, InRange (d k) info := by
      intro k hk
      have := hr ((k : Nat) : Int) (by rw [← hmap]; exact List.mem_map.2 ⟨k, hk, rfl⟩)
      rwa [dimOf_line] at this
    rw [← hmap, List.flatMap_map, List.flatMap_map]
    simp only [dimOf_line]
    cases o with
    | math noise =>
      obtain rfl : info = .math noise := by
        unfold resolveInfo at hi
        exact (Except.ok.inj hi).symm
      have e2 : (fs.flatMap fun q => dephaseSites (d q) ((q : Nat) : Int) (.math noise)) = [] := by simp [dephaseSites]
      rw [e2]
      show chain d (fs.flatMap fun q => depolSites (d q) ((q : Nat) : Int) (.math noise)) rho = _
      refine chain_flatMap _ _ fs ?_ rho
      intro q _ rho
      exact math_chan q (hpos q) _ rho
    | sub m =>
      have : ∃ m', rectify m i = .ok m' ∧ info = .sub m' := by
        unfold resolveInfo at hi
        obtain ⟨m', h1, h2⟩ := bindOk hi
        exact ⟨m', h1, (Except.ok.inj h2).symm⟩
      obtain ⟨m', hm', rfl⟩ := this
      have hent := rectify_entries hm'
      dsimp only
      rw [← hent]
      have hasc : ∀ e ∈ m', e.1.1 < e.1.2 := fun e he => (hl _ _ ((rectify_ok hm' e.1.1 e.1.2).1
        (by unfold PyDict.keys; exact List.mem_map.2 ⟨e, he, rfl⟩))).1
      have h1 : ∀ rho, chain d (fs.flatMap fun q => depolSites (d q) ((q : Nat) : Int) (.sub m')) rho =
          fs.foldl (fun rho q => m'.foldl (fun rho e => pairChannel q e rho) rho) rho := by
        refine chain_flatMap _ (fun q rho => m'.foldl (fun rho e => pairChannel q e rho) rho) fs ?_
        intro q hq rho
        refine chain_map _ _ m' ?_ rho
        rintro ⟨⟨a, b⟩, noise⟩ he rho
        have hin := hr' q hq _ he
        have hab := hasc _ he
        dsimp only at hin hab
        unfold pairChannel
        obtain ⟨a, rfl⟩ : ∃ k : Fin (d q), a = ((k : Nat) : Int) := ⟨⟨a.toNat, by omega⟩, by simp; omega⟩
        obtain ⟨b, rfl⟩ : ∃ k : Fin (d q), b = ((k : Nat) : Int) := ⟨⟨b.toNat, by omega⟩, by simp; omega⟩
        simp only [below_line]
        exact sub_chan q a b (by exact_mod_cast hab) noise rho
      have h2 : ∀ rho, chain d (fs.flatMap fun q => dephaseSites (d q) ((q : Nat) : Int) (.sub m')) rho =
          fs.foldl (fun rho q => m'.foldl (fun rho e => restChannel q e rho) rho) rho := by
        refine chain_flatMap _ (fun q rho => m'.foldl (fun rho e => restChannel q e rho) rho) fs ?_
        intro q hq rho
        refine chain_flatMap _ (fun e rho => restChannel q e rho) m' ?_ rho
        rintro e he rho
        unfold restChannel
        rw [others_fin, List.map_map]
        refine chain_map _ (fun l rho => dephase q l e.2.dephasing rho) _ ?_ rho
        intro l _ rho
        exact level_chan q l _ rho
      rw [h1, h2]

/-- the draws after one gate -/
theorem gate_chan (hpos : ∀ i, 0 < d i) {errs : Errors} {i : Instr} {ls : List (Fin n)} (hf : Flagged d i.gate ls)
    (hfit : ∀ modes, PyDict.get? errs i.tag = some modes → ∀ e ∈ modes, ModeFits i e.1 ∧ LevelsFit (List.ofFn d) i e.1 e.2 ∧ ProbabilitiesFit (List.ofFn d) i e.1 e.2)
    (ha : Ascending errs) :
    ∃ ts, (∀ rng s, applyNoiseP rng (List.ofFn d) errs i s = runSites rng ts s) ∧ (∀ t ∈ ts, ∀ k, ∀ e ∈ t.out k, isOrig e = false) ∧
      (∀ t ∈ ts, ValidProbs t.ps ∧ t.ps.sum = 1) ∧
      ∀ rho, chain d ts rho = ((PyDict.get? errs i.tag).getD []).foldl (fun rho e => entryChannel d i e rho) rho := by
  cases hg : PyDict.get? errs i.tag with
  | none =>
    refine ⟨[], fun rng s => ?_, by simp, by simp, fun rho => rfl⟩
    unfold applyNoiseP
    rw [hg]
    rfl
  | some modes =>
    have hfit := hfit modes hg
    have key : ∀ l : PyDict String (NoiseObj ℝ), (∀ e ∈ l, e ∈ modes) → ∃ ts, (∀ rng s, List.foldlM (applyModeP rng (List.ofFn d) i) s l = runSites rng ts s) ∧
        (∀ t ∈ ts, ∀ k, ∀ e ∈ t.out k, isOrig e = false) ∧ (∀ t ∈ ts, ValidProbs t.ps ∧ t.ps.sum = 1) ∧
        ∀ rho, chain d ts rho = l.foldl (fun rho e => entryChannel d i e rho) rho := by
      intro l
      induction l with
      | nil => exact fun _ => ⟨[], fun _ _ => rfl, by simp, by simp, fun _ => rfl⟩
      | cons e l ih =>
        intro hin
        obtain ⟨ts, t1, t2, t3, t4⟩ := ih fun e he => hin e (List.mem_cons_of_mem _ he)
        obtain ⟨f1, f2, f3⟩ := hfit e (hin e (List.mem_cons_self ..))
        obtain ⟨mode, o⟩ := e
        obtain ⟨us, u1, u2, u3, u4⟩ := entry_chan hpos hf f1 f2
        have hval : ∀ t ∈ us, ValidProbs t.ps := by
          have hok := (applyModeP_iff hpos hf (mode, o) (fun m hm => by
            dsimp only at hm
            subst hm
            exact ha _ _ hg _ _ (hin _ (List.mem_cons_self ..))) (fun _ => 0) ⟨⟨[], 0, 0⟩, []⟩).2 ⟨f1, f2, f3⟩
          rw [u1] at hok
          exact (runSites_iff _ _ _).1 hok
        refine ⟨us ++ ts, ?_, ?_, ?_, ?_⟩
        · intro rng s
          rw [List.foldlM_cons, runSites_append, u1]
          congr 1
          funext s'
          exact t1 rng s'
        · intro t ht
          rcases List.mem_append.1 ht with ht | ht
          · exact u2 t ht
          · exact t2 t ht
        · intro t ht
          rcases List.mem_append.1 ht with ht | ht
          · exact ⟨hval t ht, u3 t ht⟩
          · exact t3 t ht
        · intro rho
          rw [chain_append, u4, t4]
          rfl
    obtain ⟨ts, t1, t2, t3, t4⟩ := key modes fun _ h => h
    refine ⟨ts, fun rng s => ?_, t2, t3, t4⟩
    rw [← t1]
    unfold applyNoiseP
    rw [hg]

/-! ### the circuit -/

/-- the outcomes of the generator for lists of probabilities, from draw `off` -/
def outcomes (rng : Draws) (off : Nat) (Ps : List (List ℝ)) : List Nat := (Ps.zipIdx off).map fun p => rng p.2 % p.1.length

/-- what the outcomes of some draws add -/
def sitesOut (ts : List Site) (l : List Nat) : List NoisyInstr := (ts.zip l).flatMap fun t => t.1.out t.2

/-- the mean over the outcomes of several draws -/
theorem mean_sites : ∀ (ts : List Site) (rho : DensityOp d), mean (ts.map Site.ps) (fun l => conjBy (outOp d (sitesOut ts l)) rho) = chain d ts rho
  | [], rho => by
    show conjBy (outOp d []) rho = rho
    rw [outOp_nil, conjBy_one]
  | t :: ts, rho => by
    rw [List.map_cons]
    unfold mean
    have h1 : ∀ k, (fun l => conjBy (outOp d (sitesOut (t :: ts) (k :: l))) rho) = fun l => conjL (outOp d (sitesOut ts l)) (conjBy (outOp d (t.out k)) rho) := by
      intro k
      funext l
      rw [conjL_apply, ← conjBy_mul]
      congr 1
      unfold outOp sitesOut
      rw [List.zip_cons_cons, List.flatMap_cons, List.map_append, List.reverse_append, List.prod_append]
    simp only [h1]
    have h2 : ∀ k, t.ps.getD k 0 • (mean (ts.map Site.ps) fun l => conjL (outOp d (sitesOut ts l)) (conjBy (outOp d (t.out k)) rho)) =
        mean (ts.map Site.ps) fun l => conjL (outOp d (sitesOut ts l)) (t.ps.getD k 0 • conjBy (outOp d (t.out k)) rho) := by
      intro k
      rw [← mean_smul]
      simp only [map_smul]
    simp only [h2]
    rw [← mean_sum]
    simp only [← map_sum]
    exact mean_sites ts (siteChan d t rho)

theorem outcomes_append (rng : Draws) (off : Nat) (Ps Qs : List (List ℝ)) : outcomes rng off (Ps ++ Qs) = outcomes rng off Ps ++ outcomes rng (off + Ps.length) Qs := by
  unfold outcomes
  rw [List.zipIdx_append, List.map_append]

theorem outcomes_length (rng : Draws) (off : Nat) (Ps : List (List ℝ)) : (outcomes rng off Ps).length = Ps.length := by
  unfold outcomes
  simp

theorem sitesOut_outcomes (rng : Draws) : ∀ (ts : List Site) (off : Nat), sitesOut ts (outcomes rng off (ts.map Site.ps)) =
    (ts.zipIdx off).flatMap fun t => t.1.out (rng t.2 % t.1.ps.length)
  | [], off => rfl
  | t :: ts, off => by
    have := sitesOut_outcomes rng ts (off + 1)
    unfold sitesOut outcomes at this ⊢
    rw [List.map_cons, List.zipIdx_cons, List.zipIdx_cons, List.map_cons, List.zip_cons_cons, List.flatMap_cons, List.flatMap_cons, this]

theorem sitesOut_notOrig {ts : List Site} (h : ∀ t ∈ ts, ∀ k, ∀ e ∈ t.out k, isOrig e = false) (l : List Nat) : ∀ e ∈ sitesOut ts l, isOrig e = false := by
  intro e he
  obtain ⟨⟨t, k⟩, ht, he⟩ := List.mem_flatMap.1 he
  exact h t (List.of_mem_zip ht).1 k e he

theorem circuit_law (hpos : ∀ i, 0 < d i) {errs : Errors} (ha : Ascending errs) : ∀ (instrs : List Instr), (∀ i ∈ instrs, ∃ ls, Flagged d i.gate ls) →
    NoiseFits (List.ofFn d) errs instrs → ∃ (Ps : List (List ℝ)) (out : List Nat → List NoisyInstr),
      (∀ rng s, ∃ s', instrs.foldlM (fun s i => applyNoiseP rng (List.ofFn d) errs i (emitP s (.orig i))) s = .ok s' ∧
        s'.instrs = s.instrs ++ out (outcomes rng s.drawn Ps) ∧ s'.drawn = s.drawn + Ps.length ∧ s'.asked = s.asked ++ Ps) ∧
      (∀ p ∈ Ps, (∀ x ∈ p, 0 ≤ x) ∧ p.sum = 1) ∧
      ∀ (Ms : List (DensityOp d)), Ms.length = instrs.length → ∀ rho,
        mean Ps (fun l => conjBy (semList d (out l) Ms).reverse.prod rho) = noisyChannel d errs (instrs.zip Ms) rho
  | [], _, _ => ⟨[], fun _ => [], fun rng s => ⟨s, rfl, by simp, rfl, by simp⟩, by simp, fun Ms _ rho => by
      show conjBy 1 rho = rho
      exact conjBy_one rho⟩
  | i :: instrs, hf, hp => by
    obtain ⟨Ps, out, c1, c2, c3⟩ := circuit_law hpos ha instrs (fun j hj => hf j (by simp [hj])) fun j hj => hp j (List.mem_cons_of_mem _ hj)
    obtain ⟨ls, hl⟩ := hf i (by simp)
    obtain ⟨ts, t1, t2, t3, t4⟩ := gate_chan hpos hl (hp i (List.mem_cons_self ..)) ha
    refine ⟨ts.map Site.ps ++ Ps, fun l => .orig i :: (sitesOut ts (l.take ts.length) ++ out (l.drop ts.length)), ?_, ?_, ?_⟩
    · intro rng s
      obtain ⟨s1, r1, r2, r3, r4⟩ := runSites_ok rng ts (emitP s (.orig i)) fun t ht => (t3 t ht).1
      obtain ⟨s2, q1, q2, q3, q4⟩ := c1 rng s1
      refine ⟨s2, ?_, ?_, ?_, ?_⟩
      · rw [List.foldlM_cons, t1, r1]
        exact q1
      · have h0 : (emitP s (.orig i)).drawn = s.drawn := rfl
        have h1 : (emitP s (.orig i)).instrs = s.instrs ++ [.orig i] := rfl
        have h3 : (outcomes rng s.drawn (ts.map Site.ps)).length = ts.length := by rw [outcomes_length, List.length_map]
        dsimp only
        rw [outcomes_append, ← h3, List.take_left, List.drop_left, sitesOut_outcomes, q2, r2, r3, h0, h1, List.length_map]
        simp only [List.append_assoc, List.nil_append, List.cons_append]
      · rw [q3, r3, List.length_append, List.length_map]
        show s.drawn + _ + _ = _
        omega
      · rw [q4, r4, List.append_assoc]
        rfl
    · intro p hp
      rcases List.mem_append.1 hp with hp | hp
      · obtain ⟨t, ht, rfl⟩ := List.mem_map.1 hp
        exact ⟨(t3 t ht).1.1, (t3 t ht).2⟩
      · exact c2 p hp
    · intro Ms hlen rho
      obtain _ | ⟨M, Ms⟩ := Ms
      · simp at hlen
      rw [List.length_cons, List.length_cons, Nat.add_right_cancel_iff] at hlen
      rw [List.zip_cons_cons]
      unfold noisyChannel
      rw [← c3 Ms hlen, ← t4, ← mean_sites]
      have h1 : ∀ l : List Nat, conjBy (semList d (.orig i :: (sitesOut ts (l.take ts.length) ++ out (l.drop ts.length))) (M :: Ms)).reverse.prod rho =
          conjBy ((semList d (out (l.drop (ts.map Site.ps).length)) Ms).reverse.prod * outOp d (sitesOut ts (l.take (ts.map Site.ps).length))) (conjBy M rho) := by
        intro l
        rw [← conjBy_mul, List.length_map]
        congr 1
        have : semList d (.orig i :: (sitesOut ts (l.take ts.length) ++ out (l.drop ts.length))) (M :: Ms) =
          M :: semList d (sitesOut ts (l.take ts.length) ++ out (l.drop ts.length)) Ms := rfl
        rw [this, semList_append _ (sitesOut_notOrig t2 _), List.reverse_cons, List.reverse_append, List.prod_append, List.prod_append, List.prod_singleton]
        rfl
      simp only [h1]
      exact mean_chain (ts.map Site.ps) Ps (fun l => outOp d (sitesOut ts l)) (fun l => (semList d (out l) Ms).reverse.prod) (conjBy M rho)

end Qudits.Shots
