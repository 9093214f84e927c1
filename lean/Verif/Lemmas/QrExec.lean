import Verif.Lemmas.QrLoop
import Mathlib.Analysis.SpecialFunctions.Trigonometric.Bounds
namespace Qudits
open LGraph Spec Matrix LocalQR QRAlg Complex

variable {d : Nat} {g : LGraph} {lp : Equiv.Perm (Fin d)}

/-! ### stored phases -/

theorem mem_pyset {κ ν : Type} [DecidableEq κ] (l : PyDict κ ν) (k : κ) (v : ν) (p : κ × ν) (h : p ∈ PyDict.set l k v) : p ∈ l ∨ p.2 = v := by
  induction l with
  | nil => simp only [PyDict.set, List.mem_singleton] at h; exact Or.inr (by rw [h])
  | cons r rs ih =>
    by_cases hr : r.1 = k
    · simp only [PyDict.set, hr, if_true] at h
      rcases List.mem_cons.1 h with rfl | h
      · exact Or.inr rfl
      · exact Or.inl (by simp [h])
    · simp only [PyDict.set, hr, if_false] at h
      rcases List.mem_cons.1 h with rfl | h
      · exact Or.inl (by simp)
      · rcases ih h with h | h
        · exact Or.inl (by simp [h])
        · exact Or.inr h

theorem wf_setPhase (hg : Wf g) (n : Int) (x : ℝ) (h : LGraph) (e : g.setPhase n x = .ok h) : Wf h := by
  unfold setPhase node at e
  cases ha : PyDict.get? g.nodes n with
  | none => rw [ha] at e; cases e
  | some a =>
    rw [ha] at e
    have hmem := (PyDict.get?_isSome_iff g.nodes n).1 (by rw [ha]; rfl)
    have hk := PyDict.keys_set_of_mem g.nodes n (PyDict.set a "phase_storage" (.flt x)) hmem
    simp only [bind, Except.bind, pure, Except.pure, Except.ok.injEq] at e
    subst e
    refine ⟨?_, ?_, hg.simple, ?_⟩
    · show (PyDict.keys _).Nodup
      rw [hk]; exact hg.nodup
    · intro p hp
      rcases mem_pyset _ _ _ _ hp with hp | hp
      · exact hg.attrs p hp
      · rw [hp]
        refine PyDict.keys_nodup_set _ _ _ ?_
        have : ∀ (l : PyDict Int Attrs), PyDict.get? l n = some a → ∃ p ∈ l, p.2 = a := by
          intro l
          induction l with
          | nil => intro h; cases h
          | cons r rs ih =>
            intro h
            unfold PyDict.get? at h
            split_ifs at h with hr
            · exact ⟨r, by simp, by simpa using h⟩
            · obtain ⟨p, hp, hp'⟩ := ih h
              exact ⟨p, by simp [hp], hp'⟩
        obtain ⟨p', hp', rfl⟩ := this _ ha
        exact hg.attrs p' hp'
    · intro e he
      show _ ∈ PyDict.keys _ ∧ _ ∈ PyDict.keys _
      rw [hk]
      exact hg.ends e he

/-- storing a phase at a node that has one -/
theorem Spec.Device.setPhase (h : Device d g lp) (i : Fin d) (x : ℝ) (hs : (value g (i : Nat) "phase_storage").isSome) :
    ∃ g', g.setPhase (i : Nat) x = .ok g' ∧ Device d g' lp ∧ (∀ (m : Int) k, value g' m k = if m = (i : Nat) ∧ k = "phase_storage" then some (.flt x)
      else value g m k) ∧ g'.edges = g.edges := by
  obtain ⟨g', e1, e2, e3, _, e5⟩ := setPhase_ok g ((i : Nat) : Int) x (h.mem i)
  have hv : ∀ (j : Int) k, k ≠ "phase_storage" → value g' j k = value g j k := by
    intro j k hk
    rw [e5, if_neg (fun h => hk h.2)]
  have hj : ∀ u v, edgeData g' u v = edgeData g u v := by
    intro u v
    unfold edgeData; rw [e3]
  refine ⟨g', e1, ⟨wf_setPhase h.wf _ _ _ e1, ?_, by rw [e2]; exact h.names, ?_, ?_, ?_, ?_, ?_⟩, e5, e3⟩
  · have hsome : ∀ n k, (value g' n k).isSome ↔ (value g n k).isSome := by
      intro n k
      rw [e5]
      split_ifs with hc
      · rw [hc.1, hc.2]; simp [hs]
      · rfl
    intro n hn m hm k hk
    rw [e2] at hn hm
    rw [hsome] at hk ⊢
    exact h.uniform n hn m hm k hk
  · intro j; rw [hv _ _ (by decide)]; exact h.lp j
  · intro j; rw [hv _ _ (by decide)]; exact h.level j
  · obtain ⟨j, hj⟩ := h.start; exact ⟨j, by rw [hv _ _ (by decide)]; exact hj⟩
  · intro a b
    obtain ⟨p, hp⟩ := h.conn a b
    refine ⟨p, hp.first, hp.last, hp.steps.imp ?_, hp.nodup⟩
    intro u v huv
    unfold Spec.Joined at huv ⊢
    rw [hj]; exact huv
  · intro j v hv'
    rw [e5] at hv'
    split_ifs at hv' with hc
    · exact ⟨x, by simpa using hv'.symm⟩
    · exact h.phases j v hv'

theorem Spec.Device.length (h : Device d g lp) : g.nodes.length = d := by
  have := h.names.length_eq
  simpa [Spec.names, PyDict.keys] using this

/-- the diagonal matrix with one phase -/
noncomputable def onePhase (i : Fin d) (x : ℝ) : Matrix (Fin d) (Fin d) ℂ := diagonal fun j => if j = i then cexp (-I * x) else 1

/-- the diagonal matrix with the phases selected by `p`, from `i` on -/
noncomputable def phasesFrom (i : Nat) (p : Fin d → Prop) [DecidablePred p] (f : Fin d → ℝ) : Matrix (Fin d) (Fin d) ℂ :=
  diagonal fun j => if i ≤ j ∧ p j then cexp (-I * f j) else 1

theorem phasesFrom_top (p : Fin d → Prop) [DecidablePred p] (f : Fin d → ℝ) : phasesFrom d p f = 1 := by
  unfold phasesFrom
  rw [← diagonal_one]
  congr 1
  funext j
  rw [if_neg (by have := j.isLt; omega)]

theorem phasesFrom_succ (i : Fin d) (p : Fin d → Prop) [DecidablePred p] (f : Fin d → ℝ) :
    phasesFrom i p f = phasesFrom (i + 1) p f * (if p i then onePhase i (f i) else 1) := by
  unfold phasesFrom onePhase
  by_cases hp : p i
  · rw [if_pos hp, diagonal_mul_diagonal]
    congr 1
    funext j
    by_cases hj : j = i
    · subst hj; rw [if_pos ⟨le_rfl, hp⟩, if_neg (by omega), if_pos rfl, one_mul]
    · have : (j : Nat) ≠ i := fun e => hj (Fin.ext e)
      rw [if_neg hj, mul_one]
      by_cases h2 : p j
      · by_cases h3 : (i : Nat) ≤ j
        · rw [if_pos ⟨h3, h2⟩, if_pos ⟨by omega, h2⟩]
        · rw [if_neg (by tauto), if_neg (by rintro ⟨h, _⟩; omega)]
      · rw [if_neg (by tauto), if_neg (by tauto)]
  · rw [if_neg hp, mul_one]
    congr 1
    funext j
    by_cases hj : j = i
    · subst hj; rw [if_neg (by tauto), if_neg (by tauto)]
    · have : (j : Nat) ≠ i := fun e => hj (Fin.ext e)
      by_cases h2 : p j
      · by_cases h3 : (i : Nat) ≤ j
        · rw [if_pos ⟨h3, h2⟩, if_pos ⟨by omega, h2⟩]
        · rw [if_neg (by tauto), if_neg (by rintro ⟨h, _⟩; omega)]
      · rw [if_neg (by tauto), if_neg (by tauto)]

/-- the gates of a list are phase gates -/
def AllPhases (l : List PInstr) : Prop := ∀ x ∈ l, PhaseRotation x ∧ x.dagger = false

theorem takePhase_ok {C : Matrix (Fin d) (Fin d) ℂ →* Matrix (Fin d) (Fin d) ℂ} (q : Int) (preLevel : Attrs → Except PyErr PVal)
    (hpre : ∀ (i : Fin d) (a : Attrs), PyDict.get? a "lpmap" = some (.int ((lp i : Fin d) : Nat)) →
      ∃ l, preLevel a = .ok l ∧ ∀ x, PhasePass.lineOp d (phaseInstr q d l x) = C (onePhase i x))
    (ph : Fin d → ℝ) : ∀ (m i : Nat) (g : LGraph) (out : List PInstr) (saved : PyDict Nat ℝ), i + m = d → Device d g lp →
    (∀ j : Fin d, value g (j : Nat) "phase_storage" = some (.flt (if (j : Nat) < i then 0 else ph j))) →
    (∀ j : Fin d, (j : Nat) < i → PyDict.get? saved (j : Nat) = some (newMod (ph j))) →
    ∃ g' E saved', (List.range' i m).foldlM (takePhase q d preLevel) (g, out, saved) = .ok (g', out ++ E, saved') ∧ Device d g' lp ∧
      (∀ j : Fin d, value g' (j : Nat) "phase_storage" = some (.flt 0)) ∧
      (∀ j : Fin d, PyDict.get? saved' (j : Nat) = some (newMod (ph j))) ∧
      AllPhases E ∧ E.length ≤ m ∧
      circuitOp (PhasePass.lineOp d) E = C (phasesFrom i (fun j => |newMod (ph j)| > 1e-4) (fun j => newMod (ph j))) ∧ g'.edges = g.edges ∧
      (∀ n k, k ≠ "phase_storage" → value g' n k = value g n k) ∧ ((∀ j, |newMod (ph j)| ≤ 1e-4) → E = []) := by
  classical
  intro m
  induction m with
  | zero =>
    intro i g out saved hi h1 h2 h3
    refine ⟨g, [], saved, by simp [pure, Except.pure], h1, ?_, ?_, by simp [AllPhases], le_rfl, ?_, rfl, fun _ _ _ => rfl, fun _ => rfl⟩
    · intro j
      rw [h2 j, if_pos (by have := j.isLt; omega)]
    · intro j
      exact h3 j (by have := j.isLt; omega)
    · rw [circuitOp_nil, show i = d by omega, phasesFrom_top, map_one]
  | succ m ih =>
    intro i g out saved hi h1 h2 h3
    let fi : Fin d := ⟨i, by omega⟩
    rw [List.range'_succ, List.foldlM_cons]
    have hv : value g ((fi : Nat) : Int) "phase_storage" = some (.flt (ph fi)) := by
      have := h2 fi
      rw [if_neg (by simp [fi])] at this
      exact this
    have hph : g.phase ((i : Nat) : Int) = .ok (ph fi) := phase_ok g _ _ hv
    obtain ⟨g', e1, e2, e3, e4⟩ := h1.setPhase fi 0 (by rw [hv]; rfl)
    obtain ⟨a, ha⟩ := Option.isSome_iff_exists.1 ((PyDict.get?_isSome_iff g.nodes _).2 (h1.mem fi))
    have hnode : g.node ((i : Nat) : Int) = .ok a := by
      unfold node
      rw [show PyDict.get? g.nodes ((i : Nat) : Int) = some a from ha]
    obtain ⟨l, hl1, hl2⟩ := hpre fi a (by
      have := h1.lp fi
      unfold value at this
      rw [ha] at this
      exact this)
    set E1 : List PInstr := if |newMod (ph fi)| > 1e-4 then [phaseInstr q d l (newMod (ph fi))] else [] with hE1
    have hstep : takePhase q d preLevel (g, out, saved) i = .ok (g', out ++ E1, PyDict.set saved i (newMod (ph fi))) := by
      unfold takePhase
      simp only [bind, Except.bind, pure, Except.pure]
      rw [hph]
      simp only []
      rw [hnode]
      simp only []
      rw [hl1]
      simp only []
      rw [show g.setPhase ((i : Nat) : Int) 0 = .ok g' from e1]
      rw [hE1]
      split_ifs <;> simp
    rw [hstep]
    obtain ⟨g2, E, saved2, f1, f2, f3, f4, f5, f6, f7, f8, f9, f10⟩ := ih (i + 1) g' (out ++ E1) (PyDict.set saved i (newMod (ph fi))) (by omega) e2 (by
      intro j
      rw [e3]
      by_cases hj : j = fi
      · subst hj
        rw [if_pos ⟨rfl, rfl⟩, if_pos (by simp [fi])]
      · have hne : (j : Nat) ≠ i := fun e => hj (Fin.ext e)
        have hne' : ¬ ((((j : Nat) : Int)) = ((fi : Nat) : Int) ∧ "phase_storage" = "phase_storage") := by
          rintro ⟨h, _⟩; exact hne (by have : (j : Nat) = fi := by exact_mod_cast h
                                       exact this)
        rw [if_neg hne', h2 j]
        by_cases hlt : (j : Nat) < i
        · rw [if_pos hlt, if_pos (by omega)]
        · rw [if_neg hlt, if_neg (by omega)]) (by
      intro j hj
      by_cases hji : (j : Nat) = i
      · rw [hji, PyDict.get?_set_self]
        have : j = fi := Fin.ext hji
        rw [this]
      · rw [PyDict.get?_set_ne _ _ _ _ (fun e => hji e.symm)]
        exact h3 j (by omega))
    refine ⟨g2, E1 ++ E, saved2, ?_, f2, f3, f4, ?_, ?_, ?_, by rw [f8, e4], ?_, ?_⟩
    · rw [← List.append_assoc]; exact f1
    · intro x hx
      rcases List.mem_append.1 hx with hx | hx
      · rw [hE1] at hx
        split_ifs at hx
        · simp at hx; subst hx; exact ⟨⟨_, rfl⟩, rfl⟩
        · simp at hx
      · exact f5 x hx
    · rw [List.length_append]
      have : E1.length ≤ 1 := by rw [hE1]; split_ifs <;> simp
      omega
    · rw [circuitOp_append, f7]
      have := phasesFrom_succ fi (fun j => |newMod (ph j)| > 1e-4) (fun j => newMod (ph j))
      rw [show phasesFrom i (fun j => |newMod (ph j)| > 1e-4) (fun j => newMod (ph j)) =
        phasesFrom fi (fun j => |newMod (ph j)| > 1e-4) (fun j => newMod (ph j)) from rfl, this, map_mul]
      congr 1
      rw [hE1]
      split_ifs
      · rw [circuitOp_cons, circuitOp_nil, one_mul, hl2]
      · rw [circuitOp_nil, map_one]
    · intro n k hk
      rw [f9 n k hk, e3, if_neg (fun h => hk h.2)]
    · intro hz
      rw [f10 hz, hE1, if_neg (not_lt.2 (hz fi)), List.append_nil]

theorem newMod_zero : newMod 0 = 0 := by
  unfold newMod pyMod
  simp

theorem stored_zero (hn : NoPhases d g) (j : Fin d) : stored g j = 0 := by
  unfold stored
  cases hv : value g ((j : Nat) : Int) "phase_storage" with
  | none => rfl
  | some v => rw [hn j v hv]

theorem takePhases_ok {C : Matrix (Fin d) (Fin d) ℂ →* Matrix (Fin d) (Fin d) ℂ} (q : Int) (preLevel : Attrs → Except PyErr PVal)
    (hpre : ∀ (i : Fin d) (a : Attrs), PyDict.get? a "lpmap" = some (.int ((lp i : Fin d) : Nat)) →
      ∃ l, preLevel a = .ok l ∧ ∀ x, PhasePass.lineOp d (phaseInstr q d l x) = C (onePhase i x)) (h : Device d g lp) :
    ∃ g' E saved, takePhases q d preLevel g = .ok (g', E, saved) ∧ Device d g' lp ∧ NoPhases d g' ∧ AllPhases E ∧ E.length ≤ d ∧
      circuitOp (PhasePass.lineOp d) E = C (phasesFrom 0 (fun j => |newMod (stored g j)| > 1e-4) (fun j => newMod (stored g j))) ∧
      g'.edges = g.edges ∧ (∀ n k, k ≠ "phase_storage" → value g' n k = value g n k) ∧ (NoPhases d g → E = []) := by
  unfold takePhases
  simp only [bind, Except.bind, pure, Except.pure]
  rcases h.hasPhases with ⟨h1, h2⟩ | ⟨h1, h2⟩
  · rw [h1]
    simp only [if_true]
    rw [h.length, List.range_eq_range']
    obtain ⟨g', E, saved, f1, f2, f3, _, f5, f6, f7, f8, f9, f10⟩ := takePhase_ok q preLevel hpre (stored g) d 0 g [] [] (by simp) h (by
      intro j
      obtain ⟨x, hx⟩ := h2 j
      rw [if_neg (by omega)]
      unfold stored
      rw [hx]) (by intro j hj; omega)
    rw [List.nil_append] at f1
    exact ⟨g', E, saved, f1, f2, fun i v hv => by rw [f3 i] at hv; exact (Option.some_inj.1 hv).symm, f5, f6, f7, f8, f9,
      fun hn => f10 fun j => by rw [stored_zero hn, newMod_zero]; norm_num⟩
  · rw [h1]
    refine ⟨g, [], [], rfl, h, fun i v hv => (by rw [h2 i] at hv; cases hv), by simp [AllPhases], by simp, ?_, rfl, fun _ _ _ => rfl,
      fun _ => rfl⟩
    rw [circuitOp_nil]
    have : phasesFrom (d := d) 0 (fun j => |newMod (stored g j)| > 1e-4) (fun j => newMod (stored g j)) = 1 := by
      unfold phasesFrom
      rw [← diagonal_one]
      congr 1
      funext j
      rw [if_neg]
      rintro ⟨_, hj⟩
      have : stored g j = 0 := by unfold stored; rw [h2 j]
      rw [this, newMod_zero] at hj
      norm_num at hj
    rw [this, map_one]

/-! ### the phases of the diagonal -/

theorem qrPhases_ok {C : Matrix (Fin d) (Fin d) ℂ →* Matrix (Fin d) (Fin d) ℂ} (q : Int) (del : ℝ) (levelAt : LGraph → Nat → Except PyErr PVal)
    (hlev : ∀ i : Fin d, ∃ l, levelAt g i = .ok l ∧ ∀ x, PhasePass.lineOp d (phaseInstr q d l x) = C (onePhase i x))
    (u : Arr2 ℂ) (hr : u.rows = d) (hc : u.cols = d) : ∀ (m i : Nat) (acc : List PInstr), i + m = d →
    ∃ E, (List.range' i m).foldlM (qrPhase q d del levelAt g u) acc = .ok (acc ++ E) ∧ AllPhases E ∧ E.length ≤ m ∧
      circuitOp (PhasePass.lineOp d) E = C (phasesFrom i (fun j => |arg (u.toM d j j)| > del) (fun j => arg (u.toM d j j))) := by
  intro m
  induction m with
  | zero =>
    intro i acc hi
    refine ⟨[], by simp [pure, Except.pure], by simp [AllPhases], le_rfl, ?_⟩
    rw [circuitOp_nil, show i = d by omega, phasesFrom_top, map_one]
  | succ m ih =>
    intro i acc hi
    let fi : Fin d := ⟨i, by omega⟩
    obtain ⟨l, hl1, hl2⟩ := hlev fi
    have hget : u.get i i = .ok (u.toM d fi fi) := by
      unfold Arr2.get
      rw [if_pos ⟨by omega, by omega⟩]; rfl
    set E1 : List PInstr := if |arg (u.toM d fi fi)| > del then [phaseInstr q d l (arg (u.toM d fi fi))] else [] with hE1
    have hstep : qrPhase q d del levelAt g u acc i = .ok (acc ++ E1) := by
      unfold qrPhase
      rw [hget]
      simp only [bind, Except.bind, pure, Except.pure]
      rw [show levelAt g i = .ok l from hl1, hE1]
      split_ifs <;> simp
    obtain ⟨E, f1, f2, f3, f4⟩ := ih (i + 1) (acc ++ E1) (by omega)
    refine ⟨E1 ++ E, ?_, ?_, ?_, ?_⟩
    · rw [List.range'_succ, List.foldlM_cons, hstep, ← List.append_assoc]; exact f1
    · intro x hx
      rcases List.mem_append.1 hx with hx | hx
      · rw [hE1] at hx
        split_ifs at hx
        · simp at hx; subst hx; exact ⟨⟨_, rfl⟩, rfl⟩
        · simp at hx
      · exact f2 x hx
    · rw [List.length_append]
      have : E1.length ≤ 1 := by rw [hE1]; split_ifs <;> simp
      omega
    · rw [circuitOp_append, f4]
      have := phasesFrom_succ fi (fun j => |arg (u.toM d j j)| > del) (fun j => arg (u.toM d j j))
      rw [show phasesFrom i (fun j : Fin d => |arg (u.toM d j j)| > del) (fun j => arg (u.toM d j j)) =
        phasesFrom fi (fun j => |arg (u.toM d j j)| > del) (fun j => arg (u.toM d j j)) from rfl, this, map_mul]
      congr 1
      rw [hE1]
      split_ifs
      · rw [circuitOp_cons, circuitOp_nil, one_mul, hl2]
      · rw [circuitOp_nil, map_one]

theorem phasesFrom_unitary (i : Nat) (p : Fin d → Prop) [DecidablePred p] (f : Fin d → ℝ) : phasesFrom i p f ∈ unitaryGroup (Fin d) ℂ := by
  rw [mem_unitaryGroup_iff]
  unfold phasesFrom
  rw [star_eq_conjTranspose, diagonal_conjTranspose, diagonal_mul_diagonal, ← diagonal_one]
  congr 1
  funext j
  simp only [Pi.star_apply]
  split_ifs
  · rw [RCLike.star_def, ← Complex.exp_conj, ← Complex.exp_add]
    simp
  · simp

theorem norm_phase (p : Prop) [Decidable p] (x : ℝ) : ‖(if p then cexp (-I * x) else 1)‖ = 1 := by
  split_ifs
  · rw [show -I * (x : ℂ) = ((-x : ℝ) : ℂ) * I by push_cast; ring, Complex.norm_exp_ofReal_mul_I]
  · simp

/-- a unitary matrix that is clear below the diagonal is, after the phase gates, close to the identity -/
theorem nearOne_phases {eps del : ℝ} (hdel : 0 ≤ del) (W : Matrix (Fin d) (Fin d) ℂ) (hW : W ∈ unitaryGroup (Fin d) ℂ) (B : ℝ)
    (hB : ∑ c, ∑ r ∈ below c, ‖W r c‖ ^ 2 ≤ B) :
    NearOne (Real.sqrt B + 2 * B + del) (phasesFrom 0 (fun j => |arg (W j j)| > del) (fun j => arg (W j j)) * W) := by
  classical
  obtain ⟨h1, h2⟩ := near_diagonal W hW B hB
  have hB0 : 0 ≤ B := le_trans (Finset.sum_nonneg fun c _ => Finset.sum_nonneg fun r _ => sq_nonneg _) hB
  have hs := Real.sqrt_nonneg B
  intro i j
  unfold phasesFrom
  rw [diagonal_mul]
  by_cases hij : i = j
  · subst hij
    rw [Matrix.one_apply_eq]
    obtain ⟨k1, k2⟩ := h2 i
    have hpolar : W i i = ‖W i i‖ * cexp (arg (W i i) * I) := (Complex.norm_mul_exp_arg_mul_I (W i i)).symm
    by_cases ha : |arg (W i i)| > del
    · rw [if_pos ⟨Nat.zero_le _, ha⟩]
      have : cexp (-I * (arg (W i i) : ℝ)) * W i i = (‖W i i‖ : ℂ) := by
        conv_lhs => rw [hpolar]
        rw [mul_left_comm, show Complex.arg ((‖W i i‖ : ℂ) * cexp (arg (W i i) * I)) = arg (W i i) by rw [← hpolar], ← Complex.exp_add]
        rw [show -I * (arg (W i i) : ℂ) + (arg (W i i) : ℂ) * I = 0 by ring, Complex.exp_zero, mul_one]
      rw [this]
      rw [← Complex.ofReal_one, ← Complex.ofReal_sub, Complex.norm_real, Real.norm_eq_abs, abs_le]
      constructor <;> linarith
    · rw [if_neg (fun h => ha h.2), one_mul]
      have e1 : W i i - 1 = ((‖W i i‖ : ℂ) - 1) * cexp (arg (W i i) * I) + (cexp (arg (W i i) * I) - 1) := by
        conv_lhs => rw [hpolar]
        ring
      have e2 : ‖cexp (arg (W i i) * I) - 1‖ ≤ del := by
        refine le_trans ?_ (not_lt.1 ha)
        have := Real.norm_exp_I_mul_ofReal_sub_one_le (x := arg (W i i))
        rw [mul_comm]
        simpa using this
      rw [e1]
      refine le_trans (norm_add_le _ _) ?_
      rw [norm_mul, Complex.norm_exp_ofReal_mul_I, mul_one, ← Complex.ofReal_one, ← Complex.ofReal_sub, Complex.norm_real, Real.norm_eq_abs]
      have : |‖W i i‖ - 1| ≤ 2 * B := by rw [abs_le]; constructor <;> linarith
      rw [Complex.ofReal_one]
      linarith
  · rw [Matrix.one_apply_ne hij, sub_zero, norm_mul]
    have hb : ‖W i j‖ ≤ Real.sqrt B := Real.le_sqrt_of_sq_le (h1 i j hij)
    rw [norm_phase, one_mul]
    linarith

/-! ### the whole decomposition -/

theorem execute_ok {C C' : Matrix (Fin d) (Fin d) ℂ →* Matrix (Fin d) (Fin d) ℂ} {Q : PInstr → Prop} {L : Nat} {sp : PathFinder} (q : Int)
    {eps del : ℝ} (heps : 0 ≤ eps) (hdel : 0 ≤ del) (preLevel : Attrs → Except PyErr PVal) (emit : Emit)
    (levelAt : LGraph → Nat → Except PyErr PVal) (h : Device d g lp)
    (hpre : ∀ (i : Fin d) (a : Attrs), PyDict.get? a "lpmap" = some (.int ((lp i : Fin d) : Nat)) →
      ∃ l, preLevel a = .ok l ∧ ∀ x, PhasePass.lineOp d (phaseInstr q d l x) = C' (onePhase i x))
    (hemit : ∀ g', Device d g' lp → NoPhases d g' → g'.edges = g.edges → (∀ n, value g' n "lpmap" = value g n "lpmap") →
      EmitOk sp d g' emit C Q L)
    (hlev : ∀ g', Device d g' lp → ∀ i : Fin d, ∃ l, levelAt g' i = .ok l ∧ ∀ x, PhasePass.lineOp d (phaseInstr q d l x) = C (onePhase i x))
    (u : Arr2 ℂ) (hr : u.rows = d) (hc : u.cols = d) (hu : u.toM d ∈ unitaryGroup (Fin d) ℂ) :
    ∃ res T pre rots phs, execute sp q d eps del preLevel emit levelAt false false u g = .ok res ∧ res.decomp = pre ++ rots ++ phs ∧
      Device d res.graph lp ∧ NoPhases d res.graph ∧
      AllPhases pre ∧ pre.length ≤ d ∧ (NoPhases d g → pre = []) ∧
      circuitOp (PhasePass.lineOp d) pre = C' (phasesFrom 0 (fun j => |newMod (stored g j)| > 1e-4) (fun j => newMod (stored g j))) ∧
      (∀ x ∈ rots, Q x) ∧ rots.length ≤ L * (d * (d - 1) / 2) ∧ AllPhases phs ∧ phs.length ≤ d ∧
      (∃ f : Fin d → ℂ, (∀ i, ‖f i‖ = 1) ∧ circuitOp (PhasePass.lineOp d) phs = C (diagonal f)) ∧
      T ∈ unitaryGroup (Fin d) ℂ ∧ circuitOp (PhasePass.lineOp d) (rots ++ phs) = C T ∧
      NearOne (qrError d eps del) (T * u.toM d) ∧
      0 ≤ res.alg ∧ 0 ≤ res.tot := by
  obtain ⟨g', E, saved, e1, e2, e3, e4, e5, e6, e7, e8, e9⟩ := takePhases_ok q preLevel hpre h
  have hem := hemit g' e2 e3 e7 (fun n => e8 n _ (by decide))
  have h0 : Reached C Q L (u.toM d) E 0 1 ⟨u, E, 0, 0⟩ :=
    ⟨hr, hc, one_mem _, by rw [one_mul], ⟨[], by simp, by simp, by simp, by rw [circuitOp_nil, map_one]⟩, le_rfl, le_rfl⟩
  obtain ⟨T, st, f1, f2, f3⟩ := qrCols_ok (eps := eps) hem heps d 0 0 1 _ (by simp) h0 (by intro c hc; omega)
  rw [zero_add] at f2
  obtain ⟨D, k1, k2, k3, k4⟩ := f2.gates
  obtain ⟨P, p1, p2, p3, p4⟩ := qrPhases_ok (C := C) q del levelAt (hlev g' e2) st.u f2.rows f2.cols d 0 st.decomp (by simp)
  refine ⟨⟨st.decomp ++ P, st.alg, st.tot, g'⟩,
    phasesFrom 0 (fun j => |arg (st.u.toM d j j)| > del) (fun j => arg (st.u.toM d j j)) * T, E, D, P, ?_, ?_, e2, e3, e4, e5, e9, e6, k2, ?_, p2, p3,
    ⟨_, ?_, p4⟩, mul_mem (phasesFrom_unitary _ _ _) f2.unitary, ?_, ?_, f2.alg, f2.tot⟩
  · unfold execute
    simp only [bind, Except.bind, pure, Except.pure]
    simp only [Bool.false_eq_true, if_false, Bool.false_and]
    rw [e1]
    simp only []
    rw [hc, hr, List.range_eq_range', f1]
    simp only []
    rw [p1]
  · show st.decomp ++ P = _
    rw [k1]
  · rw [Finset.sum_range_id] at k3
    exact k3
  · intro i
    exact norm_phase _ _
  · rw [circuitOp_append, p4, k4, map_mul]
  · rw [mul_assoc, ← f2.mat]
    refine nearOne_phases (eps := eps) hdel (st.u.toM d) ?_ _ (mass_below _ ?_)
    · rw [f2.mat]; exact mul_mem f2.unitary hu
    · rw [f2.mat]; exact f3

end Qudits
