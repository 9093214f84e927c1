import Verif.Spec.MisimLawSpec
import Verif.Lemmas.Law
import Verif.Lemmas.ShotsMisim
/- Lemmas for C87: the mean over the errors of the decision-diagram simulator. -/
namespace Qudits.Misim
open Spec Matrix Complex DD Shots
variable {n : Nat} {d : Fin n → Nat}

/-- the operator of a gate -/
def GateOp (d : Fin n → Nat) (e : PyGate) (M : DensityOp d) : Prop := ∃ A, e.array = .ok A ∧ HasOperator d e.gate A M

theorem gateOp_unique {e : PyGate} {M N : DensityOp d} (h1 : GateOp d e M) (h2 : GateOp d e N) : M = N := by
  obtain ⟨A, a1, a2⟩ := h1
  obtain ⟨B, b1, b2⟩ := h2
  rw [a1] at b1
  cases b1
  exact operator_unique a2 b2

open Classical in
noncomputable def opOf (d : Fin n → Nat) (e : PyGate) : DensityOp d := if h : ∃ M, GateOp d e M then choose h else 1

theorem opOf_eq {e : PyGate} {M : DensityOp d} (h : GateOp d e M) : opOf d e = M := by
  unfold opOf
  rw [dif_pos ⟨M, h⟩]
  exact gateOp_unique (Classical.choose_spec (⟨M, h⟩ : ∃ M, GateOp d e M)) h

theorem one_gateOp {e : PyGate} {q : Fin n} (hm : Made d e.gate (.one (q : Nat)) [q]) (hd : e.gate.dagger = false) {A : Arr2 ℂ} (hA : e.array = .ok A)
    (hr : A.rows = d q) (hc : A.cols = d q) : GateOp d e (embed1 (X := LvOf d) q (A.toM (d q))) := by
  have hprod : ∏ i ∈ [q].toFinset, d i = d q := by simp
  obtain ⟨-, -, -, hop⟩ := made_ok d e.gate _ [q] hm A (by simp) (by simp) (by rw [hr, hprod]) (by rw [hc, hprod])
  rw [embed_single, hd] at hop
  exact ⟨A, hA, hop⟩

theorem below_fin {m : Nat} (a : Fin m) : below? m ((a : Nat) : Int) = some a := by
  unfold below?
  rw [dif_pos ⟨by omega, by have := a.2; omega⟩]
  simp

theorem rotationLevels_ok {g : PyGate} {m : Nat} {a b : Fin m} (hab : a < b) (h : TurnedLevels g m a b) : rotationLevels g m = some (a, b) := by
  have hm := a.2
  have hlt : (a : Nat) < b := hab
  unfold rotationLevels
  dsimp only
  rcases h with ⟨ht, rest, hp⟩ | ⟨ht, v, rest, hp, h⟩
  · rw [if_neg ht, hp]
    dsimp only
    rw [below_fin, below_fin]
    rfl
  · rw [if_pos ht, hp]
    dsimp only
    rcases h with ⟨hv, ha, hb⟩ | ⟨hv, ha, hb⟩
    · rw [if_neg (by omega), show (v : Int) = ((a : Nat) : Int) by rw [ha], show ((a : Nat) : Int) + 1 = ((b : Nat) : Int) by rw [hb, ha]; norm_cast,
        below_fin, below_fin]
      rfl
    · have hb2 := b.2
      have e1 : (v : Int) + 1 = (m : Int) := by omega
      have e2 : (v : Int) - 1 = ((a : Nat) : Int) := by omega
      have e3 : (v : Int) = ((b : Nat) : Int) := by omega
      rw [if_pos e1, e2, e3, below_fin, below_fin]
      rfl

theorem rot_pi : rot Real.pi (Real.pi / 2) = !![0, -1; 1, 0] := by
  rw [rot_eq]
  unfold cval
  simp

theorem flip_op {g e : PyGate} {q : Fin n} (h : DepolError d g q e) (hf : Rot g → ∃ a b : Fin (d q), a < b ∧ TurnedLevels g (d q) a b) :
    GateOp d e (embed1 (X := LvOf d) q (flipError g (d q))) := by
  obtain ⟨hm, hd, hdim, h⟩ := h
  unfold flipError
  by_cases hr : g.tag = "rxy" ∨ g.tag = "rz" ∨ g.tag = "virtrz"
  · rw [if_pos hr] at h ⊢
    obtain ⟨a, b, hab, hl⟩ := hf hr
    obtain ⟨ht, a', b', hl', hp⟩ := h
    obtain ⟨rfl, rfl⟩ := turned_unique hl hl'
    rw [rotationLevels_ok hab hl]
    dsimp only
    obtain ⟨r, A, h1, h2, h3, h4, h5⟩ := nested_r (good_levels hab Real.pi (Real.pi / 2)) Real.pi (Real.pi / 2)
    rw [← rot_pi, ← h5]
    refine one_gateOp hm hd ?_ h3 h4
    unfold PyGate.array
    rw [ht, hdim, hp]
    show (do rArray (d q) (← rInit (d q) _)) = _
    rw [h1]
    exact h2
  · rw [if_neg hr] at h ⊢
    obtain ⟨ht, hp⟩ := h
    obtain ⟨A, hA, h3, h4, hent⟩ := xArray_ok (d q)
    have hM : A.toM (d q) = of fun i j : Fin (d q) => if (i : Nat) = (j + 1) % d q then 1 else 0 := by
      funext i j
      exact hent i j j.2
    rw [← hM]
    refine one_gateOp hm hd ?_ h3 h4
    unfold PyGate.array
    rw [ht, hdim]
    exact hA

theorem phase_op {g e : PyGate} {q : Fin n} (h : DephaseError d g q e) (hf : Rot g → ∃ a b : Fin (d q), a < b ∧ TurnedLevels g (d q) a b) :
    GateOp d e (embed1 (X := LvOf d) q (phaseError g (d q))) := by
  obtain ⟨hm, hd, hdim, h⟩ := h
  unfold phaseError
  by_cases hr : g.tag = "rxy" ∨ g.tag = "rz" ∨ g.tag = "virtrz"
  · rw [if_pos hr] at h ⊢
    obtain ⟨a, b, hab, hl⟩ := hf hr
    obtain ⟨ht, a', b', hl', hp⟩ := h
    obtain ⟨rfl, rfl⟩ := turned_unique hl hl'
    rw [rotationLevels_ok hab hl]
    dsimp only
    have hlt : (a : Nat) < b := hab
    have hb := b.2
    have hinit : rzInit (d q) (.list [.int (a : Nat), .int (b : Nat), .flt Real.pi]) = .ok ⟨(a : Nat), (b : Nat), 0, regulateTheta Real.pi⟩ := by
      have hl : levelsSetter ((a : Nat) : Int) ((b : Nat) : Int) = (((a : Nat) : Int), ((b : Nat) : Int)) := levelsSetter_sorted (by omega)
      simp only [rzInit, needInt, needFlt, checkLevels, bind, Except.bind, pure, Except.pure, List.getElem?_cons_zero,
        List.getElem?_cons_succ, hl]
      rw [if_pos (by omega)]
    obtain ⟨A, h2, h3, h4, h5⟩ := rzArray_ok (good_levels hab 0 (regulateTheta Real.pi))
    have h6 : A.toM (d q) = twoLevel a b !![-I, 0; 0, I] := by
      rw [h5, rot_regulate, rz_two, cexp_I_mul, cexp_neg_I_mul]
      congr 1
      simp
    rw [← h6]
    refine one_gateOp hm hd ?_ h3 h4
    unfold PyGate.array
    rw [ht, hdim, hp]
    show (do rzArray (d q) (← rzInit (d q) _)) = _
    rw [hinit]
    exact h2
  · rw [if_neg hr] at h ⊢
    obtain ⟨ht, hp⟩ := h
    obtain ⟨A, hA, h3, h4, hent⟩ := zArray_ok (d q)
    have hM : A.toM (d q) = of fun i j : Fin (d q) => if i = j then cexp (2 * Real.pi * I / d q * (j : Nat)) else 0 := by
      funext i j
      show _ = if i = j then cexp (2 * Real.pi * I / d q * (j : Nat)) else 0
      rw [← omg_pow]
      refine (hent i j j.2).trans ?_
      simp [Fin.ext_iff]
    rw [← hM]
    refine one_gateOp hm hd ?_ h3 h4
    unfold PyGate.array
    rw [ht, hdim]
    exact hA

theorem filterMap_fin (ts : List (Fin n)) : (ts.map fun i : Fin n => ((i : Nat) : Int)).filterMap (below? n) = ts := by
  induction ts with
  | nil => rfl
  | cons t ts ih => rw [List.map_cons, List.filterMap_cons, below_fin, ih]

theorem errorLines_ok {g : PyGate} (hg : Common d g) {mode : String} {lines : List (Fin n)} (h : ErrorLines g mode lines) :
    errorLines n g mode = lines := by
  obtain ⟨t, ts, hm, -⟩ := common_made hg
  have htl : g.gate.target.lines = ts.map fun i : Fin n => ((i : Nat) : Int) := by rw [hm.target]; exact hm.1
  have hl : (g.gate.target.lines).filterMap (below? n) = ts := by
    rw [htl, filterMap_fin]
  change (if mode = "all" then List.finRange n else if mode = "control" then ((g.gate.target.lines).filterMap (below? n)).take 1
    else if mode = "target" then (((g.gate.target.lines).filterMap (below? n)).drop 1).take 1 else (g.gate.target.lines).filterMap (below? n)) = lines
  rw [hl]
  have hinj : Function.Injective fun i : Fin n => ((i : Nat) : Int) := fun a b h => Fin.ext (Int.ofNat.inj h)
  rcases h with ⟨hmode, h⟩ | ⟨rfl, h⟩ | ⟨rfl, q, rest, rfl, h⟩ | ⟨rfl, p, q, rest, rfl, h⟩
  · rw [htl] at h
    have := List.map_injective_iff.2 hinj h
    rcases hmode with rfl | rfl <;> simp [this]
  · rw [if_pos rfl, h]
  · rw [htl] at h
    rw [if_neg (by decide), if_pos rfl]
    obtain _ | ⟨t0, ts⟩ := ts
    · simp at h
    · rw [List.map_cons] at h
      have := hinj (List.cons.inj h).1
      simp [this]
  · rw [htl] at h
    rw [if_neg (by decide), if_neg (by decide), if_pos rfl]
    obtain _ | ⟨t0, _ | ⟨t1, ts⟩⟩ := ts
    · simp at h
    · simp at h
    · rw [List.map_cons, List.map_cons] at h
      have := hinj (List.cons.inj (List.cons.inj h).2).1
      simp [this]

/-- the product of gates applied one after the other -/
noncomputable def opsOf (d : Fin n → Nat) (es : List PyGate) : DensityOp d := (es.map (opOf d)).reverse.prod

theorem opsOf_nil : opsOf d [] = 1 := rfl

theorem opsOf_append (a b : List PyGate) : opsOf d (a ++ b) = opsOf d b * opsOf d a := by
  unfold opsOf
  rw [List.map_append, List.reverse_append, List.prod_append]

theorem opsOf_cons (e : PyGate) (a : List PyGate) : opsOf d (e :: a) = opsOf d a * opOf d e := by
  have := opsOf_append (d := d) [e] a
  rw [List.singleton_append] at this
  rw [this]
  congr 1
  simp [opsOf]

theorem together_ops {R : Fin n → PyGate → Prop} {A : (q : Fin n) → Matrix (Fin (d q)) (Fin (d q)) ℂ}
    {lines : List (Fin n)} {es : List PyGate} (h : List.Forall₂ R lines es)
    (hA : ∀ q ∈ lines, ∀ e, R q e → GateOp d e (embed1 (X := LvOf d) q (A q))) : together lines A = opsOf d es := by
  have : ∀ M : DensityOp d, lines.foldl (fun M q => embed1 (X := LvOf d) q (A q) * M) M = opsOf d es * M := by
    induction h with
    | nil => intro M; rw [opsOf_nil, one_mul]; rfl
    | cons h _ ih =>
      intro M
      rw [List.foldl_cons, ih (fun q hq => hA q (by simp [hq])), opsOf_cons, opOf_eq (hA _ (by simp) _ h), Matrix.mul_assoc]
  unfold together
  rw [this, mul_one]

/-! ### the draws -/

/-- the outcomes of draws with these probabilities, the first one being number `off` -/
def hits (rng : Chance ℝ) (off : Nat) (ps : List ℝ) : List Bool := (ps.zipIdx off).map fun p => rng p.2 p.1

theorem hits_cons (rng : Chance ℝ) (off : Nat) (p : ℝ) (ps : List ℝ) : hits rng off (p :: ps) = rng off p :: hits rng (off + 1) ps := by
  unfold hits
  rw [List.zipIdx_cons, List.map_cons]

theorem hits_append (rng : Chance ℝ) (off : Nat) (ps qs : List ℝ) : hits rng off (ps ++ qs) = hits rng off ps ++ hits rng (off + ps.length) qs := by
  unfold hits
  rw [List.zipIdx_append, List.map_append]

theorem hits_length (rng : Chance ℝ) (off : Nat) (ps : List ℝ) : (hits rng off ps).length = ps.length := by
  unfold hits
  simp

/-- the gates that are added -/
def added (ts : List (ℝ × List PyGate)) (l : List Bool) : List PyGate := (ts.zip l).flatMap fun t => if t.2 then t.1.2 else []

/-- two outcomes -/
def bern (p : ℝ) : List ℝ := [1 - p, p]

/-- outcome 1 is `true` -/
def asHit (k : Nat) : Bool := k = 1

theorem mean_bern {V : Type} [AddCommMonoid V] [Module ℝ V] (p : ℝ) (Ps : List (List ℝ)) (f : List Nat → V) :
    mean (bern p :: Ps) f = (1 - p) • mean Ps (fun l => f (0 :: l)) + p • mean Ps (fun l => f (1 :: l)) := by
  unfold bern
  rw [mean]
  simp [Finset.sum_range_succ]

theorem mean_added : ∀ (ts : List (ℝ × List PyGate)) (rho : DensityOp d),
    mean (ts.map fun t => bern t.1) (fun l => conjBy (opsOf d (added ts (l.map asHit))) rho) =
      ts.foldl (fun rho t => withChance t.1 (opsOf d t.2) rho) rho
  | [], rho => by
    show conjBy (opsOf d []) rho = rho
    rw [opsOf_nil, conjBy_one]
  | t :: ts, rho => by
    rw [List.map_cons, mean_bern, List.foldl_cons, ← mean_added ts]
    have h0 : ∀ l, added (t :: ts) ((0 :: l).map asHit) = added ts (l.map asHit) := by
      intro l
      simp [added, asHit]
    have h1 : ∀ l, added (t :: ts) ((1 :: l).map asHit) = t.2 ++ added ts (l.map asHit) := by
      intro l
      simp [added, asHit]
    simp only [h0, h1, opsOf_append, conjBy_mul]
    have hm : ∀ X : DensityOp d, mean (ts.map fun t => bern t.1) (fun l => conjBy (opsOf d (added ts (l.map asHit))) X) =
        mean (ts.map fun t => bern t.1) (fun l => conjL (opsOf d (added ts (l.map asHit))) X) := fun X => rfl
    rw [hm, hm, hm, ← mean_smul, ← mean_smul]
    unfold withChance
    have hadd : ∀ (Ps : List (List ℝ)) (f g : List Nat → DensityOp d), mean Ps f + mean Ps g = mean Ps fun l => f l + g l := by
      intro Ps f g
      have := mean_sum (Finset.univ : Finset (Fin 2)) Ps ![f, g]
      simp only [Fin.sum_univ_two] at this
      exact this.symm
    rw [hadd]
    refine mean_congr _ fun l _ => ?_
    rw [map_add, map_smul, map_smul]

theorem modes_law (hd : ∀ i, 2 ≤ d i ∧ d i ≤ 7) {g : PyGate} (hg : Common d g) :
    ∀ (l : List (String × Noise ℝ)), (∀ e ∈ l, e.1 ∈ ["local", "nonlocal", "all", "control", "target"] ∧ (e.1 = "target" → 2 ≤ g.gate.target.lines.length) ∧
      (e.1 = "all" → (g.tag = "rxy" ∨ g.tag = "rz" ∨ g.tag = "virtrz") → ∀ q, ∃ a b : Fin (d q), a < b ∧ TurnedLevels g (d q) a b)) →
    ∃ ts : List (ℝ × List PyGate), (∀ t ∈ ts, (∃ e ∈ l, t.1 = e.2.depolarizing ∨ t.1 = e.2.dephasing) ∧ ∀ e ∈ t.2, Common d e) ∧
      (∀ rng s, l.foldlM (applyMode rng (List.ofFn d) (readInstr g)) s =
        .ok ⟨s.out ++ (added ts (hits rng s.drawn (ts.map Prod.fst))).map readInstr, s.drawn + ts.length⟩) ∧
      ∀ rho : DensityOp d, ts.foldl (fun rho t => withChance t.1 (opsOf d t.2) rho) rho = l.foldl (fun rho e => commonEntry d g e rho) rho
  | [], _ => ⟨[], by simp, fun rng s => by simp [pure, Except.pure, added], fun rho => rfl⟩
  | e :: l, h => by
    obtain ⟨ts, t1, t2, t3⟩ := modes_law hd hg l fun e he => h e (by simp [he])
    obtain ⟨lines, hl, hfit⟩ := lines_exist hg (h e (by simp))
    obtain ⟨xs, hxs, hcx⟩ := forall₂_exists lines fun q hq => depol_exists hd g q fun hr => hfit hr q hq
    obtain ⟨zs, hzs, hcz⟩ := forall₂_exists lines fun q hq => dephase_exists hd g q fun hr => hfit hr q hq
    refine ⟨(e.2.depolarizing, xs) :: (e.2.dephasing, zs) :: ts, ?_, ?_, ?_⟩
    · intro t ht
      rcases List.mem_cons.1 ht with rfl | ht
      · exact ⟨⟨e, by simp⟩, hcx⟩
      · rcases List.mem_cons.1 ht with rfl | ht
        · exact ⟨⟨e, by simp⟩, hcz⟩
        · obtain ⟨⟨e', he', h1⟩, h2⟩ := t1 t ht
          exact ⟨⟨e', by simp [he'], h1⟩, h2⟩
    · intro rng s
      have hstep := applyMode_ok hd hg (e := e) (lines := lines) (x := rng s.drawn e.2.depolarizing) (z := rng (s.drawn + 1) e.2.dephasing)
        (xs := if rng s.drawn e.2.depolarizing then xs else []) (zs := if rng (s.drawn + 1) e.2.dephasing then zs else []) hl
        (by split_ifs <;> first | exact hxs | rfl) (by split_ifs <;> first | exact hzs | rfl) rng s rfl rfl
      rw [List.foldlM_cons, hstep]
      simp only [bind, Except.bind]
      rw [t2]
      dsimp only
      rw [List.map_cons, List.map_cons, hits_cons, hits_cons]
      unfold added
      simp only [List.zip_cons_cons, List.flatMap_cons, List.map_append, List.append_assoc, List.length_cons]
      congr 2
      omega
    · intro rho
      rw [List.foldl_cons, List.foldl_cons, List.foldl_cons, t3]
      congr 1
      unfold commonEntry
      rw [errorLines_ok hg hl]
      dsimp only
      rw [together_ops hxs fun q hq e he => flip_op he fun hr => hfit hr q hq,
        together_ops hzs fun q hq e he => phase_op he fun hr => hfit hr q hq]

theorem mergeSort_sortModes (modes : List (String × Noise ℝ)) (h : (PyDict.keys modes).Nodup) :
    (modes.mergeSort fun a b => decide (a.1 ≤ b.1)) = sortModes modes := by
  obtain ⟨hp, hs⟩ := sortModes_ok modes h
  have hm := List.mergeSort_perm modes fun a b => decide (a.1 ≤ b.1)
  refine sorted_unique (hm.trans hp.symm) ?_ hs
  have h1 := List.pairwise_mergeSort (le := fun a b : String × Noise ℝ => decide (a.1 ≤ b.1)) (by
    intro a b c
    simpa using fun h1 h2 => le_trans h1 h2) (by
    intro a b
    simpa using le_total a.1 b.1) modes
  have h2 : ((modes.mergeSort fun a b => decide (a.1 ≤ b.1)).map Prod.fst).Nodup := ((hm.map Prod.fst).nodup_iff).2 h
  unfold List.Nodup at h2
  rw [List.pairwise_map] at h2
  exact (h1.and h2).imp fun h => lt_of_le_of_ne (by simpa using h.1) h.2

theorem circuit_law (hd : ∀ i, 2 ≤ d i ∧ d i ≤ 7) {noise : PyDict String (PyDict String (Noise ℝ))} (hk : Keyed noise) (hpr : Probabilities noise)
    {m : List (String × List (String × Noise ℝ))} (hm : ∀ tag, m.lookup tag = (PyDict.get? noise tag).map sortModes) :
    ∀ (gs : List PyGate), (∀ g ∈ gs, Common d g) → Applicable d noise gs →
    ∃ (ps : List ℝ) (out : List Bool → List PyGate), (∀ p ∈ ps, 0 ≤ p ∧ p ≤ 1) ∧ (∀ l, ∀ e ∈ out l, Common d e) ∧
      (∀ rng s, (gs.map readInstr).foldlM (stepGate rng (List.ofFn d) m) s =
        .ok ⟨s.out ++ (out (hits rng s.drawn ps)).map readInstr, s.drawn + ps.length⟩) ∧
      ∀ rho : DensityOp d, mean (ps.map bern) (fun l => conjBy (opsOf d (out (l.map asHit))) rho) = commonChannel d noise (gs.zip (gs.map (opOf d))) rho
  | [], _, _ => ⟨[], fun _ => [], by simp, by simp, fun rng s => by simp [pure, Except.pure], fun rho => conjBy_one rho⟩
  | g :: gs, hc, ha => by
    obtain ⟨ps, out, c1, c2, c3, c4⟩ := circuit_law hd hk hpr hm gs (fun g' hg' => hc g' (by simp [hg'])) fun g' hg' => ha g' (by simp [hg'])
    have ht : (readInstr g).tag = g.tag := rfl
    have key : ∃ ts : List (ℝ × List PyGate), (∀ t ∈ ts, (0 ≤ t.1 ∧ t.1 ≤ 1) ∧ ∀ e ∈ t.2, Common d e) ∧
        (∀ rng s, stepGate rng (List.ofFn d) m s (readInstr g) =
          .ok ⟨s.out ++ readInstr g :: (added ts (hits rng s.drawn (ts.map Prod.fst))).map readInstr, s.drawn + ts.length⟩) ∧
        ∀ rho : DensityOp d, ts.foldl (fun rho t => withChance t.1 (opsOf d t.2) rho) rho =
          (((PyDict.get? noise g.tag).getD []).mergeSort fun a b => decide (a.1 ≤ b.1)).foldl (fun rho e => commonEntry d g e rho) rho := by
      rcases hget : PyDict.get? noise g.tag with _ | modes
      · refine ⟨[], by simp, fun rng s => ?_, fun rho => by simp⟩
        unfold stepGate
        simp only [ht, hm, hget, Option.map_none, pure, Except.pure]
        simp [added]
      · have hnd : (PyDict.keys modes).Nodup := hk.2 _ (mem_of_get? hget)
        obtain ⟨hp, hs⟩ := sortModes_ok modes hnd
        obtain ⟨ts, t1, t2, t3⟩ := modes_law hd (hc g (by simp)) (sortModes modes) fun e he => ha g (by simp) modes hget e (hp.mem_iff.1 he)
        refine ⟨ts, ?_, fun rng s => ?_, fun rho => ?_⟩
        · intro t ht'
          obtain ⟨⟨e, he, h1⟩, h2⟩ := t1 t ht'
          have := hpr _ (mem_of_get? hget) e (hp.mem_iff.1 he)
          refine ⟨?_, h2⟩
          rcases h1 with h1 | h1 <;> rw [h1]
          exacts [this.1, this.2]
        · unfold stepGate
          simp only [ht, hm, hget, Option.map_some]
          rw [t2]
          simp
        · rw [t3, Option.getD_some, mergeSort_sortModes modes hnd]
    obtain ⟨ts, t1, t2, t3⟩ := key
    refine ⟨ts.map Prod.fst ++ ps, fun l => g :: (added ts (l.take ts.length) ++ out (l.drop ts.length)), ?_, ?_, ?_, ?_⟩
    · intro p hp
      rcases List.mem_append.1 hp with hp | hp
      · obtain ⟨t, ht', rfl⟩ := List.mem_map.1 hp
        exact (t1 t ht').1
      · exact c1 p hp
    · intro l e he
      rcases List.mem_cons.1 he with rfl | he
      · exact hc _ (by simp)
      · rcases List.mem_append.1 he with he | he
        · unfold added at he
          obtain ⟨⟨t, b⟩, htb, he⟩ := List.mem_flatMap.1 he
          cases b
          · simp at he
          · exact (t1 t (List.of_mem_zip htb).1).2 e (by simpa using he)
        · exact c2 _ e he
    · intro rng s
      rw [List.map_cons, List.foldlM_cons, t2]
      simp only [bind, Except.bind]
      rw [c3]
      have h3 : (hits rng s.drawn (ts.map Prod.fst)).length = ts.length := by rw [hits_length, List.length_map]
      dsimp only
      rw [hits_append, ← h3, List.take_left, List.drop_left, h3, List.length_append, List.length_map]
      simp only [List.map_cons, List.map_append, List.append_assoc, List.cons_append, Nat.add_assoc]
    · intro rho
      rw [List.map_cons, List.zip_cons_cons]
      unfold commonChannel
      rw [← c4, ← t3, ← mean_added, List.map_append, List.map_map]
      have h1 : ∀ l : List Nat, conjBy (opsOf d (g :: (added ts ((l.map asHit).take ts.length) ++ out ((l.map asHit).drop ts.length)))) rho =
          conjBy (opsOf d (out ((l.drop (ts.map (bern ∘ Prod.fst)).length).map asHit)) * opsOf d (added ts ((l.take (ts.map (bern ∘ Prod.fst)).length).map asHit)))
            (conjBy (opOf d g) rho) := by
        intro l
        rw [opsOf_cons, conjBy_mul, opsOf_append, List.length_map, List.map_take, List.map_drop]
      simp only [h1]
      exact mean_chain (ts.map (bern ∘ Prod.fst)) (ps.map bern) (fun l => opsOf d (added ts (l.map asHit))) (fun l => opsOf d (out (l.map asHit))) (conjBy (opOf d g) rho)

end Qudits.Misim
