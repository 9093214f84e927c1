import Verif.Model.InitialState
import Verif.Spec.InitialStateSpec
import Verif.Lemmas.PrepCompile
import Verif.Props.TnsimProps
import Verif.Props.EmbedProps
import Verif.Lemmas.Misim
import Verif.Props.PhaseCircuitProps
/-! The gates that a state preparation appends, and what the simulator does with them -/
namespace Qudits
open Spec MicroDD StatePrep LocalQR Matrix Tnsim
open PhasePass (GateSemantics Matches arrayOf)

variable {n : Nat} {d : Fin n → Nat}

/-- the shape of an appended gate -/
structure PrepForm (d : Fin n → Nat) (g : PInstr) (o : Gate) (k : Fin n) (A : Arr2 ℂ) (cs : List (Fin n)) (lev : Reg d) : Prop where
  target : g.target = .one (k : Nat)
  dagger : g.dagger = false
  array : arrayOf g = some (.ok A)
  rows : A.rows = d k
  cols : A.cols = d k
  controls : g.controls = if cs = [] then none else
    some ⟨cs.map fun c : Fin n => ((c : Nat) : Int), cs.map fun c : Fin n => ((lev c : Nat) : Int)⟩
  sorted : cs.Pairwise (· < ·)
  below : ∀ c ∈ cs, c < k
  object : gateObj (List.ofFn d) g = .ok o
  odims : o.dims = List.ofFn d
  otype : o.gateType = typeFor (cs.length + 1)
  otarget : o.target = .one (k : Nat)
  ocontrols : o.controls = g.controls
  odagger : o.dagger = false
  olong : o.longRange = false

theorem kind_array {c : Nat} (hc : 2 ≤ c) (o : PrepOp) (h : o.levels = (-1, 0) ∨ ∃ i : Nat, i + 1 < c ∧ o.levels = ((i : Int), (i : Int) + 1)) :
    ∃ kind, prepKind c o = .ok kind ∧ ∀ t ctl, ∃ A, arrayOf ⟨kind, t, c, ctl, false⟩ = some (.ok A) ∧ A.rows = c ∧ A.cols = c := by
  rcases h with h | ⟨i, hi, h⟩
  · have hz : o.isZ = true := by unfold PrepOp.isZ; rw [h]; rfl
    have hr : rzInit c (.list [.int 0, .int 1, .flt o.theta]) = .ok ⟨0, 1, 0, regulateTheta o.theta⟩ := by
      have h2 : (1 : Int) < c := by omega
      simp [rzInit, needInt, needFlt, checkLevels, levelsSetter, h2, show 0 < c by omega, bind, Except.bind, pure, Except.pure]
    refine ⟨.rz ⟨0, 1, 0, regulateTheta o.theta⟩, ?_, ?_⟩
    · rw [prepKind, if_pos hz, hr]; rfl
    · intro t ctl
      have hg : GoodLevels c ⟨0, 1, 0, regulateTheta o.theta⟩ ⟨0, by omega⟩ ⟨1, by omega⟩ := ⟨rfl, rfl, by simp [Fin.lt_def]⟩
      obtain ⟨A, hA, h1, h2, _⟩ := rzArray_ok hg
      exact ⟨A, by simp [arrayOf, hA], h1, h2⟩
  · have hz : ¬ o.isZ = true := by
      unfold PrepOp.isZ; rw [h]; simp
    have hr := rInit_explicit (d := c) (i : Int) ((i : Int) + 1) o.theta o.phi (by omega)
    rw [levelsSetter_sorted (by omega)] at hr
    refine ⟨.r ⟨i, (i : Int) + 1, regulateTheta o.theta, o.phi⟩, ?_, ?_⟩
    · rw [prepKind, if_neg hz, h, hr]; rfl
    · intro t ctl
      have hg : GoodLevels c ⟨i, (i : Int) + 1, regulateTheta o.theta, o.phi⟩ ⟨i, by omega⟩ ⟨i + 1, hi⟩ :=
        ⟨rfl, by simp, by simp [Fin.lt_def]⟩
      obtain ⟨A, hA, h1, h2, _⟩ := rArray_ok hg
      exact ⟨A, by simp [arrayOf, hA], h1, h2⟩

/-- the controls of an operation as lines of the register -/
theorem ctl_fin {k : Fin n} {ctl : List (Int × Int)} (h : CtlOK (List.ofFn d) k ctl) {lev : Reg d}
    (hm : Matches ⟨ctl.map Prod.fst, ctl.map Prod.snd⟩ lev) :
    ∃ cs : List (Fin n), ctl.map Prod.fst = cs.map (fun c : Fin n => ((c : Nat) : Int)) ∧
      ctl.map Prod.snd = cs.map (fun c : Fin n => ((lev c : Nat) : Int)) ∧ cs.Pairwise (· < ·) ∧ ∀ c ∈ cs, c < k := by
  induction ctl with
  | nil => exact ⟨[], rfl, rfl, List.Pairwise.nil, by simp⟩
  | cons p ps ih =>
    obtain ⟨cs, h1, h2, h3, h4⟩ := ih ⟨(List.pairwise_cons.1 h.1).2, fun q hq => h.2 q (by simp [hq])⟩ (by
      intro q hq j hj
      refine hm q ?_ j hj
      simp only [List.map_cons, List.zip_cons_cons]
      exact List.mem_cons_of_mem _ hq)
    obtain ⟨a, b, e, ha, hb⟩ := h.2 p (by simp)
    have han : a < n := lt_trans ha k.2
    refine ⟨⟨a, han⟩ :: cs, ?_, ?_, ?_, ?_⟩
    · rw [List.map_cons, List.map_cons, h1, e]
    · rw [List.map_cons, List.map_cons, h2]
      congr 1
      exact (hm p (by simp) ⟨a, han⟩ (by rw [e])).symm
    · rw [List.pairwise_cons]
      refine ⟨?_, h3⟩
      intro c hc
      have hc' : ((c : Nat) : Int) ∈ ps.map Prod.fst := by rw [h1]; exact List.mem_map.2 ⟨c, hc, rfl⟩
      obtain ⟨q, hq, hqe⟩ := List.mem_map.1 hc'
      have := (List.pairwise_cons.1 h.1).1 q hq
      rw [e, hqe] at this
      simp only [Fin.lt_def]
      omega
    · intro c hc
      rcases List.mem_cons.1 hc with rfl | hc
      · exact ha
      · exact h4 c hc

theorem instrOf_form (hd : ∀ i, 2 ≤ d i) {o : PrepOp} (ho : OpOK (List.ofFn d) o) {del : ℝ} {gs : List PInstr}
    (hgs : instrOf (List.ofFn d) del o = .ok gs) :
    ∀ g ∈ gs, ∃ ob k A cs lev, PrepForm d g ob k A cs lev ∧ o.qudit = (k : Nat) ∧ o.controls.map Prod.fst = cs.map (fun c : Fin n => ((c : Nat) : Int)) := by
  obtain ⟨kn, hq, hkn, hlv, hctl⟩ := ho
  rw [List.length_ofFn] at hkn
  obtain ⟨k, rfl⟩ : ∃ k : Fin n, kn = k := ⟨⟨kn, hkn⟩, rfl⟩
  rw [getD_dims] at hlv
  obtain ⟨lev, hlev⟩ := exists_lev hctl (fun i => by have := hd i; omega)
  obtain ⟨cs, hcs1, hcs2, hcs3, hcs4⟩ := ctl_fin hctl hlev
  unfold instrOf at hgs
  by_cases hdel : |o.theta| > del
  swap
  · rw [if_neg hdel] at hgs
    injection hgs with hgs
    subst hgs
    intro g hg
    cases hg
  rw [if_pos hdel] at hgs
  have hqn : o.qudit.toNat = k := by rw [hq]; simp
  have hdim : (List.ofFn d)[(k : Nat)]? = some (d k) := by rw [List.getElem?_ofFn]; simp
  obtain ⟨kind, hk1, hk2⟩ := kind_array (hd k) o hlv
  rw [hqn, hdim] at hgs
  simp only [bind, Except.bind, pure, Except.pure, hk1] at hgs
  cases hctrl : Gate.control ⟨List.ofFn d, "R", .single, .one o.qudit, none, false, false⟩ (o.controls.map Prod.fst) (o.controls.map Prod.snd) with
  | error e => rw [hctrl] at hgs; cases hgs
  | ok g' =>
    rw [hctrl] at hgs
    simp only [Except.ok.injEq] at hgs
    subst hgs
    intro g hg
    rw [List.mem_singleton] at hg
    subst hg
    obtain ⟨A, hA, hAr, hAc⟩ := hk2 (.one o.qudit) g'.controls
    refine ⟨g', k, A, cs, lev, ?_, hq, hcs1⟩
    by_cases hempty : o.controls = []
    · have hcse : cs = [] := by
        rw [hempty] at hcs1
        simpa using hcs1.symm
      rw [hempty] at hctrl
      have hg' : g' = ⟨List.ofFn d, "R", .single, .one o.qudit, none, false, false⟩ := by
        simp [Gate.control] at hctrl
        exact hctrl.symm
      subst hg'
      exact ⟨by rw [hq], rfl, hA, hAr, hAc, by rw [if_pos hcse], hcs3, hcs4, rfl, rfl, by rw [hcse]; rfl, by rw [hq], rfl, rfl, rfl⟩
    · have hne : o.controls.map Prod.fst ≠ [] := by simpa using hempty
      have hne' : o.controls.map Prod.snd ≠ [] := by simpa using hempty
      have hcse : cs ≠ [] := by
        rintro rfl
        exact hne hcs1
      have hres := ((control_ok_iff _ _ _ _ hne hne').1 hctrl).2
      have hgc : g'.controls = some ⟨o.controls.map Prod.fst, o.controls.map Prod.snd⟩ := by
        rw [hres]; rfl
      refine ⟨by rw [hq], rfl, hA, hAr, hAc, by rw [if_neg hcse, hgc, hcs1, hcs2], hcs3, hcs4, ?_, by rw [hres]; rfl, ?_, by rw [hres]; rw [← hq]; rfl, rfl, by rw [hres]; rfl, by rw [hres]; rfl⟩
      · unfold gateObj
        rw [hgc]
        exact hctrl
      · rw [hres]
        simp only [Gate.controlResult, Target.lines, hcs1]
        match cs, hcse with
        | [a], _ => rfl
        | a :: b :: cs, _ =>
          rw [if_neg (by simp), if_pos (by simp)]
          rfl

theorem lineSet_map (cs : List (Fin n)) : lineSet n (cs.map fun c : Fin n => ((c : Nat) : Int)) = cs.toFinset := by
  ext i
  simp only [lineSet, Finset.mem_filter, Finset.mem_univ, true_and, List.mem_map, List.mem_toFinset]
  constructor
  · rintro ⟨c, hc, e⟩
    have : c = i := Fin.ext (by exact_mod_cast e)
    rw [← this]; exact hc
  · intro h
    exact ⟨i, h, rfl⟩

theorem PrepForm.lines {g : PInstr} {o : Gate} {k : Fin n} {A : Arr2 ℂ} {cs : List (Fin n)} {lev : Reg d} (h : PrepForm d g o k A cs lev) :
    o.controlLines ++ o.target.lines = (cs ++ [k]).map fun i : Fin n => ((i : Nat) : Int) := by
  unfold Gate.controlLines
  rw [h.ocontrols, h.controls, h.otarget]
  by_cases hc : cs = []
  · rw [if_pos hc, hc]; rfl
  · rw [if_neg hc]; simp [Target.lines]

theorem PrepForm.nodup {g : PInstr} {o : Gate} {k : Fin n} {A : Arr2 ℂ} {cs : List (Fin n)} {lev : Reg d} (h : PrepForm d g o k A cs lev) :
    (cs ++ [k]).Nodup := by
  rw [List.nodup_append]
  refine ⟨h.sorted.imp (fun hab => ne_of_lt hab), by simp, ?_⟩
  intro a ha b hb
  rw [List.mem_singleton] at hb
  subst hb
  exact ne_of_lt (h.below a ha)

/-- the operator of an appended gate without controls, or with line 0 among them -/
theorem PrepForm.operator {g : PInstr} {o : Gate} {k : Fin n} {A : Arr2 ℂ} {cs : List (Fin n)} {lev : Reg d} (h : PrepForm d g o k A cs lev)
    {sem : PInstr → Matrix (Reg d) (Reg d) ℂ} (hsem : GateSemantics d sem) (h0 : cs = [] ∨ ∃ c ∈ cs, (c : Nat) = 0) : HasOperator d o A (sem g) := by
  obtain ⟨M, hM1, hM2, hM3⟩ := hsem.1 g k h.target
  have hM := hM1 A h.array
  rw [h.dagger] at hM
  simp only [Bool.false_eq_true, if_false] at hM
  by_cases hc : cs = []
  · obtain ⟨B, hB, hBr, hBc, hBe⟩ := C12_full_register d o [k] A h.odims (by rw [h.otarget]; rfl) (by rw [h.ocontrols, h.controls, if_pos hc])
      (by simp) (by simp) (by simpa using h.rows) (by simpa using h.cols)
    refine ⟨B, hB, hBr, hBc, fun x y => ?_⟩
    rw [hBe, hM2 (by rw [h.controls, if_pos hc]), hM, h.odagger]
    exact congrFun (congrFun (DD.embed_single d k A) x) y
  · obtain ⟨c0, hc0, hc0'⟩ := h0.resolve_left hc
    have hctl : o.controls = some ⟨cs.map fun c : Fin n => ((c : Nat) : Int), cs.map fun c : Fin n => ((lev c : Nat) : Int)⟩ := by
      rw [h.ocontrols, h.controls, if_neg hc]
    have hkc : k ∉ cs := fun hk => lt_irrefl _ (h.below k hk)
    have hex := C13_exact d o k cs lev A c0 k h.odims h.otarget hctl hc hkc (by simp [hc0]) (by
        intro c _; simp only [Fin.le_def]; omega) (by simp) (by
        intro c hcm
        rcases List.mem_append.1 hcm with hcm | hcm
        · exact le_of_lt (h.below c hcm)
        · rw [List.mem_singleton.1 hcm]) h.rows h.cols
    have hk0 : (⟨k.1 + c0.1, by rw [hc0']; exact k.2⟩ : Fin n) = k := Fin.ext (by simp [hc0'])
    obtain ⟨B, hB⟩ := hex.1.2 ⟨by omega, by rw [hc0']; exact k.2, by rw [hk0]⟩
    obtain ⟨hBr, hBc, hBe⟩ := hex.2 B hB
    refine ⟨B, hB, hBr, hBc, fun x y => ?_⟩
    obtain ⟨lev2, hl1, hl2⟩ := hM3 _ (by rw [h.controls, if_neg hc])
    rw [hBe, hl2, hM, h.odagger]
    have hm : Matches (d := d) ⟨cs.map fun c : Fin n => ((c : Nat) : Int), cs.map fun c : Fin n => ((lev c : Nat) : Int)⟩ lev := by
      intro p hp j hj
      rw [List.zip_map'] at hp
      obtain ⟨c, hc, rfl⟩ := List.mem_map.1 hp
      have : c = j := Fin.ext (Int.ofNat.inj hj)
      rw [this]
    have hag : ∀ c ∈ cs, lev2 c = lev c := by
      intro c hc
      have := hl1 lev hm (((c : Nat) : Int), ((lev c : Nat) : Int)) (by
        rw [List.zip_map']
        exact List.mem_map.2 ⟨c, hc, rfl⟩) c rfl
      exact Fin.ext (Int.ofNat.inj this)
    rw [lineSet_map]
    unfold controlled
    have hiff : (∀ j ∈ cs.toFinset, y j = lev j) ↔ ∀ j ∈ cs.toFinset, y j = lev2 j := by
      constructor <;> intro hh j hj
      · rw [hag j (List.mem_toFinset.1 hj)]; exact hh j hj
      · rw [← hag j (List.mem_toFinset.1 hj)]; exact hh j hj
    by_cases hy : ∀ j ∈ cs.toFinset, y j = lev j
    · rw [if_pos hy, if_pos (hiff.1 hy)]; rfl
    · rw [if_neg hy, if_neg (fun hh => hy (hiff.2 hh))]

open Classical in
/-- an accepted gate is applied as the same gate with the right flag -/
theorem PrepForm.accepted {g : PInstr} {o : Gate} {k : Fin n} {A : Arr2 ℂ} {cs : List (Fin n)} {lev : Reg d} (h : PrepForm d g o k A cs lev)
    {sem : PInstr → Matrix (Reg d) (Reg d) ℂ} (hsem : GateSemantics d sem) (hr : refusal g = none) :
    ∃ o', opTensor (List.ofFn d) o' A = opTensor (List.ofFn d) o A ∧ (∃ ls, Flagged d o' ls) ∧ HasOperator d o' A (sem g) := by
  have hcase : cs = [] ∨ (∃ c ∈ cs, (c : Nat) = 0) ∧ (cs.length = 1 → (k : Nat) = 1) := by
    by_cases hc : cs = []
    · exact .inl hc
    right
    unfold refusal at hr
    rw [h.controls, if_neg hc, h.target] at hr
    simp only at hr
    by_cases h1 : (cs.map fun c : Fin n => ((c : Nat) : Int)).head? ≠ some 0
    · rw [if_pos h1] at hr; cases hr
    rw [if_neg h1] at hr
    refine ⟨?_, ?_⟩
    · match cs, hc with
      | c :: cs, _ =>
        refine ⟨c, by simp, ?_⟩
        simp at h1
        rw [h1]
    · intro hl
      by_contra hk
      rw [if_pos ⟨by simpa using hl, by
        intro he
        injection he with he
        exact hk (by exact_mod_cast he)⟩] at hr
      cases hr
  have hop : HasOperator d o A (sem g) := h.operator hsem (hcase.imp id fun hh => hh.1)
  refine ⟨{ o with longRange := decide (HasGap (o.controlLines ++ o.target.lines)) }, ?_, ⟨cs ++ [k], h.odims, h.lines, h.nodup, by simp, .inl ?_, ?_⟩, hop⟩
  · by_cases ht : o.gateType = .two
    · have hl : cs.length = 1 := by
        rw [h.otype] at ht
        generalize cs.length = m at ht
        match m, ht with
        | 1, _ => rfl
      rcases hcase with hc | ⟨⟨c, hc, hc0⟩, hk⟩
      · rw [hc] at hl; cases hl
      have hcs : cs = [c] := by
        match cs, hl, hc with
        | [a], _, hc => rw [List.mem_singleton.1 hc]
      have hng : ¬ HasGap (o.controlLines ++ o.target.lines) := by
        rw [h.lines, hcs]
        rintro ⟨m, ⟨a, ha, ham⟩, ⟨b, hb, hmb⟩, hm⟩
        simp only [List.map_append, List.map_cons, List.map_nil, List.mem_append, List.mem_singleton, hk hl, hc0] at ha hb hm
        rcases ha with rfl | rfl <;> rcases hb with rfl | rfl <;> push_cast at * <;> omega
      rw [show decide (HasGap (o.controlLines ++ o.target.lines)) = o.longRange by rw [h.olong]; simpa using hng]
    · unfold opTensor
      simp only [show ({ o with longRange := decide (HasGap (o.controlLines ++ o.target.lines)) } : Gate).toMatrix A 1 = o.toMatrix A 1 from rfl,
        show ({ o with longRange := decide (HasGap (o.controlLines ++ o.target.lines)) } : Gate).referenceLines = o.referenceLines from rfl, ht, false_and, if_false]
  · change o.gateType = _
    rw [h.otype]; simp
  · change decide (HasGap (o.controlLines ++ o.target.lines)) = true ↔ HasGap (o.controlLines ++ o.target.lines)
    simp

theorem controls_size {α : Type} [Zero α] [One α] {m B : Arr2 α} {ts dims : List Nat} {lo len : Nat} {c : List Nat × List Int}
    (h : applyIdentitiesAndControls m ts dims lo len (some c) = .ok B) : B.rows = dims.prod ∧ B.cols = dims.prod := by
  have hfill : ∀ (k : Nat) (f : Nat → Nat → Except PyErr α), Arr2.fill k f = .ok B → B.rows = k ∧ B.cols = k := by
    intro k f hf
    unfold Arr2.fill at hf
    simp only [bind, Except.bind, pure, Except.pure] at hf
    split at hf
    · cases hf
    injection hf with hf
    rw [← hf]
    exact ⟨rfl, rfl⟩
  unfold applyIdentitiesAndControls at h
  simp only [bind, Except.bind] at h
  split at h
  · cases h
  split at h
  · rename_i hh; cases hh.2
  split at h
  · split at h
    · cases h
    · exact hfill _ _ h
  · split at h
    · cases h
    · exact hfill _ _ h

theorem prod_gap {l : List Nat} (hl : ∀ e ∈ l, 2 ≤ e) {a b k : Nat} (h0 : l[0]? = some a) (hk : l[k]? = some b) (h2 : 2 ≤ k) :
    a * b < (l.take (k + 1)).prod := by
  match l, k, h2 with
  | [], _, _ => cases h0
  | [x], k + 2, _ => cases hk
  | x :: y :: rest, k + 2, _ =>
    simp only [List.getElem?_cons_zero, Option.some.injEq] at h0
    subst h0
    simp only [List.getElem?_cons_succ] at hk
    rw [List.take_succ_cons, List.take_succ_cons, List.prod_cons, List.prod_cons]
    have hb : b ∈ rest.take (k + 1) := by
      rw [List.mem_iff_getElem?]
      exact ⟨k, by rw [List.getElem?_take_of_lt (by omega)]; exact hk⟩
    have hpos : 0 < (rest.take (k + 1)).prod := by
      have := prod_pos_of (rest.take (k + 1)) fun e he => hl e (by simp [List.mem_of_mem_take he])
      omega
    have h1 := Nat.le_of_dvd hpos (List.dvd_prod hb)
    have hx := hl x (by simp)
    have hy := hl y (by simp)
    have hb2 := hl b (by simp [List.mem_of_mem_take hb])
    have h3 : 2 * b ≤ y * (rest.take (k + 1)).prod := Nat.mul_le_mul hy h1
    calc x * b < x * (2 * b) := by
          apply Nat.mul_lt_mul_of_pos_left <;> omega
      _ ≤ _ := Nat.mul_le_mul_left _ h3

/-- a refused gate -/
theorem PrepForm.refused (hd : ∀ i, 2 ≤ d i) {g : PInstr} {o : Gate} {k : Fin n} {A : Arr2 ℂ} {cs : List (Fin n)} {lev : Reg d} (h : PrepForm d g o k A cs lev)
    {e : PyErr} (hr : refusal g = some e) : opTensor (List.ofFn d) o A = .error e := by
  have hc : cs ≠ [] := by
    intro hc
    unfold refusal at hr
    rw [h.controls, if_pos hc] at hr
    cases hr
  have hctl : o.controls = some ⟨cs.map fun c : Fin n => ((c : Nat) : Int), cs.map fun c : Fin n => ((lev c : Nat) : Int)⟩ := by
    rw [h.ocontrols, h.controls, if_neg hc]
  obtain ⟨c, cr, rfl⟩ := List.exists_cons_of_ne_nil hc
  unfold refusal at hr
  rw [h.controls, if_neg hc, h.target] at hr
  simp only [List.map_cons, List.head?_cons] at hr
  by_cases h0 : (c : Nat) = 0
  · rw [if_neg (by simp [h0])] at hr
    split at hr
    swap
    · cases hr
    rename_i hh
    injection hr with hr
    subst hr
    obtain ⟨hl, ht⟩ := hh
    have hcr : cr = [] := by simpa using hl
    subst hcr
    have hk1 : (k : Nat) ≠ 1 := fun hk => ht (by rw [hk]; rfl)
    have hck := h.below c (by simp)
    rw [Fin.lt_def] at hck
    have href : o.referenceLines = .ok [((c : Nat) : Int), ((k : Nat) : Int)] := by
      unfold Gate.referenceLines
      rw [if_neg (by rw [h.lines]; simp), h.lines]
      rfl
    have hs : ([((c : Nat) : Int), ((k : Nat) : Int)].map Int.toNat).insertionSort (· ≤ ·) = [(c : Nat), (k : Nat)] := by
      simp [List.insertionSort, le_of_lt hck]
    have hty : o.gateType = .two := h.otype
    cases hm : o.toMatrix A 1 with
    | error e =>
      exfalso
      obtain ⟨sem, hsem⟩ := gateSemantics_exists d fun i => by have := hd i; omega
      obtain ⟨B, hB, _⟩ := h.operator hsem (.inr ⟨c, by simp, h0⟩)
      obtain ⟨A', hA', _⟩ := toMatrix_split hB href
      rw [hm] at hA'; cases hA'
    | ok m =>
      have hsz : m.rows = ((List.ofFn d).take (k + 1)).prod ∧ m.cols = ((List.ofFn d).take (k + 1)).prod := by
        unfold Gate.toMatrix at hm
        rw [href] at hm
        simp only [bind, Except.bind, hctl, pure, Except.pure] at hm
        rw [hs] at hm
        simp only [List.headD_cons, List.getLastD_cons, List.getLastD_nil, h0, List.drop_zero] at hm
        split at hm
        · cases hm
        rename_i v hv
        rw [if_neg (by omega)] at hm
        injection hm with hm
        subst hm
        rw [h.odims] at hv
        exact controls_size hv
      have hdc : (List.ofFn d)[(c : Nat)]? = some (d c) := by rw [List.getElem?_ofFn]; simp
      have hdk : (List.ofFn d)[(k : Nat)]? = some (d k) := by rw [List.getElem?_ofFn]; simp
      have hgap := prod_gap (dims_ge_two hd) (by rw [← h0]; exact hdc) hdk (by omega)
      unfold opTensor
      rw [hm, href]
      simp only [bind, Except.bind, hs, hty, h.olong, sizeAt, hdc, hdk, and_self, if_true, pure, Except.pure]
      rw [if_neg (by simp), reshapeT, if_neg]
      rw [hsz.1, hsz.2]
      simp only [List.prod_cons, List.prod_nil, mul_one]
      have := Nat.mul_lt_mul'' hgap hgap
      intro hcon
      rw [← hcon] at this
      apply lt_irrefl _ (lt_of_lt_of_eq this _)
      ring
  · rw [if_pos (by
      intro he
      injection he with he
      exact h0 (by exact_mod_cast he))] at hr
    injection hr with hr
    subst hr
    have hbad := C13_high_target_violated o A (k : Nat) ((c :: cr).map Fin.val) ((c :: cr).map fun c : Fin n => ((lev c : Nat) : Int)) 1 c k h.otarget
      (by rw [hctl, List.map_map]; rfl) (by
        intro x hx
        rw [h.odims, List.length_ofFn]
        rcases List.mem_append.1 hx with hx | hx
        · obtain ⟨i, _, rfl⟩ := List.mem_map.1 hx; exact i.2
        · rw [List.mem_singleton.1 hx]; exact k.2) (by simp) (by
        intro x hx
        rcases List.mem_append.1 hx with hx | hx
        · obtain ⟨i, hi, rfl⟩ := List.mem_map.1 hx
          rcases List.mem_cons.1 hi with rfl | hi
          · exact le_rfl
          · exact le_of_lt ((List.pairwise_cons.1 h.sorted).1 i hi)
        · rw [List.mem_singleton.1 hx]; exact le_of_lt (h.below c (by simp))) (by simp) (by
        intro x hx
        rcases List.mem_append.1 hx with hx | hx
        · obtain ⟨i, hi, rfl⟩ := List.mem_map.1 hx; exact le_of_lt (h.below i hi)
        · rw [List.mem_singleton.1 hx]) (by omega)
    unfold opTensor
    rw [hbad]
    rfl

/-- a gate object with its array belongs to an instruction -/
def PrepPair (d : Fin n → Nat) (g : PInstr) (p : Gate × Arr2 ℂ) : Prop := ∃ k cs lev, PrepForm d g p.1 k p.2 cs lev

theorem objects_ok (out : List PInstr) (h : ∀ g ∈ out, ∃ o k A cs lev, PrepForm d g o k A cs lev) :
    ∃ ops, objects (List.ofFn d) out = .ok ops ∧ List.Forall₂ (PrepPair d) out ops := by
  induction out with
  | nil => exact ⟨[], rfl, .nil⟩
  | cons g out ih =>
    obtain ⟨ops, h1, h2⟩ := ih fun g hg => h g (by simp [hg])
    obtain ⟨o, k, A, cs, lev, hf⟩ := h g (by simp)
    refine ⟨(o, A) :: ops, ?_, .cons ⟨k, cs, lev, hf⟩ h2⟩
    unfold objects at h1 ⊢
    rw [List.mapM_cons, hf.object, hf.array]
    simp only [bind, Except.bind, pure, Except.pure] at h1 ⊢
    rw [h1]

theorem execute_congr (sizes : List Nat) {l l' : List (Gate × Arr2 ℂ)}
    (h : List.Forall₂ (fun p p' => opTensor sizes p'.1 p'.2 = opTensor sizes p.1 p.2) l l') : Tnsim.execute sizes l' = Tnsim.execute sizes l := by
  have key : ∀ net : Net ℂ, l'.foldlM (fun net op => do
      let tl ← opTensor sizes op.1 op.2
      applyGate net tl.1 tl.2) net = l.foldlM (fun net op => do
      let tl ← opTensor sizes op.1 op.2
      applyGate net tl.1 tl.2) net := by
    induction h with
    | nil => intro net; rfl
    | cons hp _ ih =>
      intro net
      rw [List.foldlM_cons, List.foldlM_cons, hp]
      congr 1
      funext net'
      exact ih net'
  unfold Tnsim.execute
  congr 1
  funext net
  rw [key]

theorem prep_accepted (hn : 0 < n) (hpos : ∀ i, 0 < d i) {old : List (Gate × Arr2 ℂ)} {Ms : List (Matrix (Reg d) (Reg d) ℂ)}
    (hold : List.Forall₂ (fun op M => (∃ ls, Flagged d op.1 ls) ∧ HasOperator d op.1 op.2 M) old Ms)
    {sem : PInstr → Matrix (Reg d) (Reg d) ℂ} (hsem : GateSemantics d sem) {out : List PInstr} {ops : List (Gate × Arr2 ℂ)}
    (h : List.Forall₂ (PrepPair d) out ops) (hr : ∀ g ∈ out, refusal g = none) :
    ∃ v, Tnsim.execute (List.ofFn d) (old ++ ops) = .ok v ∧ Lists d v (circuitOp sem out *ᵥ (Ms.reverse.prod *ᵥ zeroState d)) := by
  have hex : ∃ ops' : List (Gate × Arr2 ℂ), List.Forall₂ (fun p p' => opTensor (List.ofFn d) p'.1 p'.2 = opTensor (List.ofFn d) p.1 p.2) ops ops' ∧
      List.Forall₂ (fun op M => (∃ ls, Flagged d op.1 ls) ∧ HasOperator d op.1 op.2 M) ops' (out.map sem) := by
    induction h with
    | nil => exact ⟨[], .nil, .nil⟩
    | @cons g p out ops hp _ ih =>
      obtain ⟨ops', h1, h2⟩ := ih fun g hg => hr g (by simp [hg])
      obtain ⟨k, cs, lev, hf⟩ := hp
      obtain ⟨o', e1, e2, e3⟩ := hf.accepted hsem (hr g (by simp))
      exact ⟨(o', p.2) :: ops', .cons e1 h1, .cons ⟨e2, e3⟩ h2⟩
  obtain ⟨ops', h1, h2⟩ := hex
  obtain ⟨v, hv1, hv2⟩ := C15_execute d hn hpos (old ++ ops') (Ms ++ out.map sem) (List.rel_append hold h2)
  refine ⟨v, ?_, ?_⟩
  · rw [← hv1]
    refine (execute_congr _ (List.rel_append ?_ h1)).symm
    exact List.forall₂_same.2 fun _ _ => rfl
  · rw [List.reverse_append, List.prod_append, ← mulVec_mulVec] at hv2
    exact hv2

theorem prep_refused (hn : 0 < n) (hd : ∀ i, 2 ≤ d i) {old : List (Gate × Arr2 ℂ)} {Ms : List (Matrix (Reg d) (Reg d) ℂ)}
    (hold : List.Forall₂ (fun op M => (∃ ls, Flagged d op.1 ls) ∧ HasOperator d op.1 op.2 M) old Ms)
    {out : List PInstr} {ops : List (Gate × Arr2 ℂ)} (h : List.Forall₂ (PrepPair d) out ops) {e : PyErr} (hr : out.findSome? refusal = some e) :
    Tnsim.execute (List.ofFn d) (old ++ ops) = .error e := by
  have hpos : ∀ i, 0 < d i := fun i => by have := hd i; omega
  obtain ⟨pre, g, post, rfl, hg, hpre⟩ := List.findSome?_eq_some_iff.1 hr
  obtain ⟨sem, hsem⟩ := gateSemantics_exists d hpos
  have hsplit : ∃ ops1 p ops2, ops = ops1 ++ p :: ops2 ∧ List.Forall₂ (PrepPair d) pre ops1 ∧ PrepPair d g p := by
    clear hr hpre
    induction pre generalizing ops with
    | nil =>
      cases h with
      | cons hp h => exact ⟨[], _, _, rfl, .nil, hp⟩
    | cons a pre ih =>
      cases h with
      | cons hp h =>
        obtain ⟨o1, p, o2, e1, e2, e3⟩ := ih h
        exact ⟨_ :: o1, p, o2, by rw [e1]; rfl, .cons hp e2, e3⟩
  obtain ⟨ops1, p, ops2, rfl, h1, k, cs, lev, hf⟩ := hsplit
  obtain ⟨v, hv, _⟩ := prep_accepted hn hpos hold hsem h1 hpre
  rw [← List.append_assoc]
  unfold Tnsim.execute at hv ⊢
  simp only [bind, Except.bind] at hv ⊢
  split at hv
  · cases hv
  rename_i net0 hn0
  split at hv
  · cases hv
  rename_i net1 hn1
  rw [List.foldlM_append]
  rw [hn1]
  simp only [bind, Except.bind, List.foldlM_cons]
  rw [hf.refused hd hg]

theorem fromTree_ops (hd : ∀ i, 2 ≤ d i) {H : List (Int × ℂ) → Int} {t : MicroDD} (hN : Normal (List.ofFn d) t) (hSh : Shape (List.ofFn d) t)
    (hH : NoCollision H t) (del : ℝ) :
    ∃ t' ops, aggregate (List.ofFn d).length (hashing H t) = .ok t' ∧ synthesis (List.ofFn d) 0 t' [] = .ok ops ∧ (∀ o ∈ ops, OpOK (List.ofFn d) o) ∧
      fromTree H del (List.ofFn d) t = (ops.mapM (instrOf (List.ofFn d) del)).bind fun out => .ok out.flatten := by
  obtain ⟨t', hagg, hsyn⟩ := prep_exact (H := H) (List.ofFn d) (dims_ge_two hd) (List.ofFn d) 0 t rfl hH hN hSh
  obtain ⟨ops, hops, _, _, hok, _⟩ := hsyn [] ⟨List.Pairwise.nil, by simp⟩
  refine ⟨t', ops, hagg, hops, fun o ho => (hok o ho).1, ?_⟩
  unfold fromTree
  rw [hagg]
  simp only [bind, Except.bind, hops, pure, Except.pure]

theorem mapM_mem {α β : Type} {f : α → Except PyErr (List β)} : ∀ (l : List α) (outs : List (List β)), l.mapM f = .ok outs → ∀ b ∈ outs.flatten,
    ∃ a ∈ l, ∃ bs, f a = .ok bs ∧ b ∈ bs
  | [], outs, h => by
    injection h with h; subst h
    intro b hb; cases hb
  | a :: l, outs, h => by
    rw [List.mapM_cons] at h
    cases e1 : f a with
    | error e => rw [e1] at h; cases h
    | ok bs =>
    rw [e1] at h
    cases e2 : l.mapM f with
    | error e => simp only [bind, Except.bind, e2] at h; cases h
    | ok rest =>
    simp only [bind, Except.bind, e2, pure, Except.pure, Except.ok.injEq] at h
    subst h
    intro b hb
    rw [List.flatten_cons, List.mem_append] at hb
    rcases hb with hb | hb
    · exact ⟨a, by simp, bs, e1, hb⟩
    · obtain ⟨a', ha', bs', h1, h2⟩ := mapM_mem l rest e2 b hb
      exact ⟨a', by simp [ha'], bs', h1, h2⟩

/-- every gate of a preparation has the shape above and comes from an operation -/
theorem fromTree_forms (hd : ∀ i, 2 ≤ d i) {H : List (Int × ℂ) → Int} {t : MicroDD} (hN : Normal (List.ofFn d) t) (hSh : Shape (List.ofFn d) t)
    (hH : NoCollision H t) {del : ℝ} {out : List PInstr} (hout : fromTree H del (List.ofFn d) t = .ok out) :
    ∀ g ∈ out, ∃ o k A cs lev, PrepForm d g o k A cs lev := by
  obtain ⟨t', ops, _, _, hok, hrun⟩ := fromTree_ops hd hN hSh hH del
  rw [hrun] at hout
  cases houts : ops.mapM (instrOf (List.ofFn d) del) with
  | error e => rw [houts] at hout; cases hout
  | ok outs =>
  rw [houts] at hout
  injection hout with hout
  subst hout
  intro g hg
  obtain ⟨o, ho, gs, h1, h2⟩ := mapM_mem ops outs houts g hg
  obtain ⟨ob, k, A, cs, lev, hf, _⟩ := instrOf_form hd (hok o ho) h1 g h2
  exact ⟨ob, k, A, cs, lev, hf⟩

/-- on at most two lines every gate can be added -/
theorem fromTree_two (hn : n ≤ 2) (hd : ∀ i, 2 ≤ d i) {H : List (Int × ℂ) → Int} {t : MicroDD} (hN : Normal (List.ofFn d) t) (hSh : Shape (List.ofFn d) t)
    (hH : NoCollision H t) (del : ℝ) : ∃ out, fromTree H del (List.ofFn d) t = .ok out := by
  obtain ⟨t', ops, _, hsy, hok, hrun⟩ := fromTree_ops hd hN hSh hH del
  rw [hrun]
  have : ∃ outs, ops.mapM (instrOf (List.ofFn d) del) = .ok outs := by
    have h : ∀ o ∈ ops, ∃ gs, instrOf (List.ofFn d) del o = .ok gs := by
      intro o ho
      rw [instrOf_ok_iff hd (hok o ho)]
      intro _ j p hp
      obtain ⟨k, hq, hkn, _, hctl⟩ := hok o ho
      rw [List.length_ofFn] at hkn
      obtain ⟨a, b, e, h1, h2⟩ := hctl.2 p (List.mem_of_getElem? hp)
      have hj := ctl_pos hctl j p hp
      rw [e] at hj
      simp only at hj
      have hj0 : j = 0 := by omega
      have ha0 : a = 0 := by omega
      subst hj0 ha0
      refine ⟨d ⟨0, by omega⟩, by rw [List.getElem?_ofFn, dif_pos (by omega)], ?_⟩
      have h3 : (List.ofFn d).getD 0 0 = d ⟨0, by omega⟩ := getD_dims ⟨0, by omega⟩ 0
      rw [h3] at h2
      rw [e]
      simp only
      omega
    clear hrun hok hsy
    induction ops with
    | nil => exact ⟨[], rfl⟩
    | cons o os ih =>
      obtain ⟨gs, hgs⟩ := h o (by simp)
      obtain ⟨outs, houts⟩ := ih fun o ho => h o (by simp [ho])
      exact ⟨gs :: outs, by rw [List.mapM_cons, hgs]; simp only [bind, Except.bind, houts, pure, Except.pure]⟩
  obtain ⟨outs, houts⟩ := this
  rw [houts]
  exact ⟨_, rfl⟩

/-- on at most two lines no gate is refused by the simulator -/
theorem PrepForm.two {g : PInstr} {o : Gate} {k : Fin n} {A : Arr2 ℂ} {cs : List (Fin n)} {lev : Reg d} (hn : n ≤ 2) (h : PrepForm d g o k A cs lev) :
    refusal g = none := by
  unfold refusal
  by_cases hc : cs = []
  · rw [h.controls, if_pos hc]
  rw [h.controls, if_neg hc, h.target]
  obtain ⟨c, cr, rfl⟩ := List.exists_cons_of_ne_nil hc
  have hck := h.below c (by simp)
  rw [Fin.lt_def] at hck
  have hk := k.2
  have h0 : (c : Nat) = 0 := by omega
  have hk1 : (k : Nat) = 1 := by omega
  simp [h0, hk1]

/-- the simulation of the gates of a preparation behind other gates -/
theorem prep_simulated (hn : 0 < n) (hd : ∀ i, 2 ≤ d i) {out : List PInstr} (hforms : ∀ g ∈ out, ∃ o k A cs lev, PrepForm d g o k A cs lev)
    {old : List (Gate × Arr2 ℂ)} {Ms : List (Matrix (Reg d) (Reg d) ℂ)}
    (hold : List.Forall₂ (fun op M => (∃ ls, Flagged d op.1 ls) ∧ HasOperator d op.1 op.2 M) old Ms) :
    ∃ new, objects (List.ofFn d) out = .ok new ∧
      (∀ e, Tnsim.execute (List.ofFn d) (old ++ new) = .error e ↔ out.findSome? refusal = some e) ∧
      ∀ v, Tnsim.execute (List.ofFn d) (old ++ new) = .ok v → ∀ sem, GateSemantics d sem →
        Lists d v (circuitOp sem out *ᵥ (Ms.reverse.prod *ᵥ zeroState d)) := by
  obtain ⟨new, hnew, hforms⟩ := objects_ok out hforms
  have hpos : ∀ i, 0 < d i := fun i => by have := hd i; omega
  refine ⟨new, hnew, ?_, ?_⟩
  · intro e
    constructor
    · intro he
      cases hr : out.findSome? refusal with
      | some e' =>
        rw [prep_refused hn hd hold hforms hr] at he
        injection he with he
        rw [he]
      | none =>
        obtain ⟨sem, hsem⟩ := gateSemantics_exists d hpos
        obtain ⟨v, hv, _⟩ := prep_accepted hn hpos hold hsem hforms (List.findSome?_eq_none_iff.1 hr)
        rw [hv] at he; cases he
    · exact prep_refused hn hd hold hforms
  · intro v hv sem hsem
    cases hr : out.findSome? refusal with
    | some e' =>
      rw [prep_refused hn hd hold hforms hr] at hv
      cases hv
    | none =>
      obtain ⟨v', hv', hl⟩ := prep_accepted hn hpos hold hsem hforms (List.findSome?_eq_none_iff.1 hr)
      rw [hv] at hv'
      injection hv' with hv'
      rw [hv']; exact hl

end Qudits
