import Verif.Lemmas.OpNorm
import Verif.Lemmas.SameGraph
import Verif.Lemmas.AdaPass
import Verif.Props.EntProps
import Verif.Props.QrProps
import Verif.Props.AdaProps
/- What the passes make of one gate, on a register. -/
namespace Qudits.Compiler
open Spec Matrix LGraph LocalQR PhasePass
open scoped Matrix.Norms.L2Operator

variable {n : Nat} {d : Fin n → Nat} {lp : ∀ i, Equiv.Perm (Fin (d i))} {sem : Op (Arr2 ℂ) → Matrix (Reg d) (Reg d) ℂ}

theorem lineOf_fin (i : Fin n) : lineOf n ((i : Nat) : Int) = some i := by
  unfold lineOf
  rw [dif_pos ⟨by omega, by have := i.isLt; omega⟩]
  congr 1

theorem instrOp_one {i : Fin n} {x : PInstr} (h : OnLine (i : Nat) (d i) x) :
    instrOp d sem (.one x) = embed1 (X := LvOf d) i (lineOp (d i) x) := by
  unfold instrOp
  simp only
  rw [h.1]
  simp only
  rw [lineOf_fin]

theorem circuitOp_one {i : Fin n} {l : List PInstr} (h : ∀ x ∈ l, OnLine (i : Nat) (d i) x) :
    circuitOp (instrOp d sem) (l.map .one) = embed1 (X := LvOf d) i (circuitOp (lineOp (d i)) l) := by
  induction l with
  | nil => rw [List.map_nil, circuitOp_nil, circuitOp_nil]; exact (embed1_one (X := LvOf d) i).symm
  | cons x l ih =>
    rw [List.map_cons, circuitOp_cons, circuitOp_cons, ih fun y hy => h y (List.mem_cons_of_mem _ hy), instrOp_one (h x (by simp))]
    exact embed1_mul (X := LvOf d) i _ _

theorem embedPair_zero {i j : Fin n} : embedPair d i j 0 = 0 := by
  ext x y; simp [embedPair]

theorem instrOp_pair {i j : Fin n} (hij : i ≠ j) {e : EntQR.EGate} (h : Elementary ⟨(i : Nat), (j : Nat), d i, d j⟩ e) :
    instrOp d sem (.pair e) = embedPair d i j (pairOp ⟨(i : Nat), (j : Nat), d i, d j⟩ e) := by
  have hne : ((j : Nat) : Int) ≠ ((i : Nat) : Int) := by
    intro e; exact hij (Fin.ext (by omega))
  cases e with
  | one k line dim b =>
    unfold instrOp pairOp
    rcases h with ⟨rfl, rfl⟩ | ⟨rfl, rfl⟩
    · simp only
      rw [lineOf_fin]
      cases k.array (d i) with
      | error e => simp only; exact embedPair_zero.symm
      | ok A => simp only [if_true]; exact (embedPair_onFirst hij _).symm
    · simp only
      rw [lineOf_fin]
      cases k.array (d j) with
      | error e => simp only; exact embedPair_zero.symm
      | ok A => simp only [if_neg hne]; exact (embedPair_onSecond hij _).symm
  | cex g q0 q1 d0 d1 b =>
    obtain ⟨rfl, rfl, rfl, rfl, rfl⟩ := h
    unfold instrOp
    simp only
    rw [lineOf_fin, lineOf_fin]

theorem circuitOp_pair {i j : Fin n} (hij : i ≠ j) {l : List EntQR.EGate} (h : ∀ e ∈ l, Elementary ⟨(i : Nat), (j : Nat), d i, d j⟩ e) :
    circuitOp (instrOp d sem) (l.map .pair) = embedPair d i j (circuitOp (pairOp ⟨(i : Nat), (j : Nat), d i, d j⟩) l) := by
  induction l with
  | nil => rw [List.map_nil, circuitOp_nil, circuitOp_nil]; exact (embedPair_one hij).symm
  | cons x l ih =>
    rw [List.map_cons, circuitOp_cons, circuitOp_cons, ih fun y hy => h y (List.mem_cons_of_mem _ hy), instrOp_pair hij (h x (by simp))]
    exact embedPair_mul hij _ _

/-! ### the graphs -/

/-- a graph of the backend as it is during the compilation -/
structure Kept (m : Nat) (lp : Equiv.Perm (Fin m)) (g0 g : LGraph) : Prop where
  dev0 : Device m g0 lp
  dev : Device m g lp
  same : SameGraph g0 g
  order : InOrder m g
  clean : NoPhases m g

def AllKept (d : Fin n → Nat) (lp : ∀ i, Equiv.Perm (Fin (d i))) (b0 b : Graphs) : Prop :=
  ∀ i : Fin n, ∃ g0 g, b0[(i : Nat)]? = some (some g0) ∧ b[(i : Nat)]? = some (some g) ∧ Kept (d i) (lp i) g0 g

theorem AllKept.start {b : Graphs} (h : Backend d lp b) : AllKept d lp b b := by
  intro i
  obtain ⟨g, h1, h2, h3, h4⟩ := h i
  exact ⟨g, g, h1, h1, h2, h2, SameGraph.refl g, h3, h4⟩

theorem AllKept.backend {b0 b : Graphs} (h : AllKept d lp b0 b) : Backend d lp b := by
  intro i
  obtain ⟨g0, g, h1, h2, h3⟩ := h i
  exact ⟨g, h2, h3.dev, h3.order, h3.clean⟩

theorem graphAt_ok {b : Graphs} {i : Fin n} {g : Option LGraph} (h : b[(i : Nat)]? = some g) : graphAt b ((i : Nat) : Int) = .ok g := by
  unfold graphAt
  rw [if_neg (by omega), Int.toNat_natCast, h]

theorem AllKept.set {b0 b : Graphs} (h : AllKept d lp b0 b) {i : Fin n} {g g' : LGraph} (hg : b[(i : Nat)]? = some (some g))
    (h1 : Device (d i) g' (lp i)) (h2 : NoPhases (d i) g') (h3 : SameGraph g g') : AllKept d lp b0 (b.set i (some g')) := by
  intro j
  obtain ⟨g0, gj, k1, k2, k3⟩ := h j
  by_cases hij : j = i
  · subst hij
    have hl : (j : Nat) < b.length := (List.getElem?_eq_some_iff.1 hg).1
    refine ⟨g0, g', k1, by rw [List.getElem?_set_self hl], k3.dev0, h1, ?_, ?_, h2⟩
    · rw [hg] at k2
      cases k2
      exact k3.same.trans h3
    · rw [hg] at k2
      cases k2
      unfold InOrder
      rw [h3.1]
      exact k3.order
  · refine ⟨g0, gj, k1, ?_, k3⟩
    rw [List.getElem?_set_ne (fun e => hij (Fin.ext e.symm))]
    exact k2

theorem lpmap_same {m : Nat} {lp : Equiv.Perm (Fin m)} {g g' : LGraph} (h : Device m g lp) (h' : Device m g' lp) (k : Int) :
    value g' k "lpmap" = value g k "lpmap" := by
  by_cases hk : ∃ i : Fin m, k = (i : Nat)
  · obtain ⟨i, rfl⟩ := hk
    rw [h.lp, h'.lp]
  · rw [value_none g k (fun e => hk ((h.mem_iff k).1 e)), value_none g' k (fun e => hk ((h'.mem_iff k).1 e))]

theorem Kept.coupled {m : Nat} {lp : Equiv.Perm (Fin m)} {g0 g : LGraph} (h : Kept m lp g0 g) {x : PInstr} (hx : CoupledRotation g x) : CoupledRotation g0 x := by
  obtain ⟨p, data, e1, e2⟩ := hx
  exact ⟨p, data, e1, physEdge_congr h.same.2 (lpmap_same h.dev0 h.dev) _ _ _ e2⟩

theorem mapM_ok {γ δ : Type} (f : γ → Except PyErr δ) (h : γ → δ) (l : List γ) (hl : ∀ x ∈ l, f x = .ok (h x)) : l.mapM f = .ok (l.map h) := by
  induction l with
  | nil => rfl
  | cons x l ih =>
    rw [List.mapM_cons, hl x (by simp), ih fun y hy => hl y (List.mem_cons_of_mem _ hy)]
    rfl

theorem levelsOf_gen {m : Nat} {lp : Equiv.Perm (Fin m)} {g : LGraph} (h : Device m g lp) (ho : InOrder m g) (dim : Nat) :
    levelsOf (some g) dim = .ok (EntQR.levelList (placementList lp) dim) := by
  have h1 : g.logPhyMap = .ok (g.nodes.map fun p => if hp : p.1.toNat < m then .int ((lp ⟨p.1.toNat, hp⟩ : Fin m) : Nat) else .int 0) := by
    refine mapM_ok _ _ _ fun p hp => ?_
    have hm : p.1 ∈ Spec.names g := List.mem_map_of_mem hp
    obtain ⟨i, hi⟩ := (h.mem_iff _).1 hm
    have hv := value_of_mem h.wf.nodup p hp "lpmap"
    rw [hi, h.lp] at hv
    unfold attr
    rw [← hv]
    have : p.1.toNat = i := by omega
    simp only [this, i.isLt, dif_pos]
  have h2 : (g.nodes.map fun p => if hp : p.1.toNat < m then (.int ((lp ⟨p.1.toNat, hp⟩ : Fin m) : Nat) : PVal) else .int 0) =
      (placementList lp).map .int := by
    have e : (fun p : Int × Attrs => if hp : p.1.toNat < m then (.int ((lp ⟨p.1.toNat, hp⟩ : Fin m) : Nat) : PVal) else .int 0) =
        (fun k : Int => if hp : k.toNat < m then (.int ((lp ⟨k.toNat, hp⟩ : Fin m) : Nat) : PVal) else .int 0) ∘ Prod.fst := rfl
    rw [e, ← List.map_map, show g.nodes.map Prod.fst = Spec.names g from rfl, ho, List.map_map]
    refine List.ext_getElem (by simp [placementList]) fun k hk1 hk2 => ?_
    have hk : k < m := by simpa using hk1
    simp [placementList, hk]
  unfold levelsOf theGraph
  simp only [bind, Except.bind, pure, Except.pure]
  rw [h1, h2]
  simp only
  have h3 : ((placementList lp).map PVal.int).mapM asInt = .ok (placementList lp) := by
    generalize placementList lp = l
    induction l with
    | nil => rfl
    | cons x l ih => rw [List.map_cons, List.mapM_cons, ih]; rfl
  rw [h3]

theorem levelsOf_ok {m : Nat} {lp : Equiv.Perm (Fin m)} {g : LGraph} (h : Device m g lp) (ho : InOrder m g) :
    levelsOf (some g) m = .ok (placementList lp) := by
  rw [levelsOf_gen h ho]
  congr 1
  unfold EntQR.levelList
  refine List.filter_eq_self.2 fun k hk => ?_
  unfold placementList at hk
  obtain ⟨i, rfl⟩ := List.mem_ofFn.1 hk
  have := (lp i).isLt
  simp only [decide_eq_true_eq]
  omega

/-! ### one gate -/

/-- `l` does what `g` does -/
structure Translated (d : Fin n → Nat) (lp : ∀ i, Equiv.Perm (Fin (d i))) (sem : Op (Arr2 ℂ) → Matrix (Reg d) (Reg d) ℂ) (b0 : Graphs) (e : ℝ)
    (A : Matrix (Reg d) (Reg d) ℂ) (l : List CInstr) : Prop where
  unitary : circuitOp (instrOp d sem) l ∈ unitaryGroup (Reg d) ℂ
  target : A ∈ unitaryGroup (Reg d) ℂ
  near : ∃ z : ℂ, ‖z‖ = 1 ∧ ‖circuitOp (instrOp d sem) l - z • placed lp A‖ ≤ e
  native : ∀ x ∈ l, Native d b0 x

theorem lineError_nonneg (m : Nat) : 0 ≤ qrError m 1e-8 1e-4 := by
  unfold qrError
  positivity

theorem near_embed1 {i : Fin n} {e : ℝ} (he : 0 ≤ e) {A B : Matrix (Fin (d i)) (Fin (d i)) ℂ} (h : Near e A B) :
    ‖embed1 (X := LvOf d) i A - embed1 (X := LvOf d) i B‖ ≤ d i * e := by
  rw [← embed1_sub]
  refine (norm_embed1_le i _).trans ((norm_le_of_entries he _ h).trans ?_)
  rw [Fintype.card_fin]

theorem near_embedPair {i j : Fin n} (hij : i ≠ j) {e : ℝ} (he : 0 ≤ e) {A B : Matrix (Fin (d i * d j)) (Fin (d i * d j)) ℂ} (h : Near e A B) :
    ‖embedPair d i j A - embedPair d i j B‖ ≤ (d i * d j : Nat) * e := by
  rw [← embedPair_sub]
  refine (norm_embedPair_le hij _).trans ((norm_le_of_entries he _ h).trans ?_)
  rw [Fintype.card_fin]

theorem phyLocQR_ok {sp : PathFinder} (hsp : FindsPaths sp) {b0 b : Graphs} (hb : AllKept d lp b0 b) {g : Op (Arr2 ℂ)} {i : Fin n}
    (ht : g.target = .one (i : Nat)) (hu : UnitaryArr g.body (d i)) (hsem : sem g = embed1 (X := LvOf d) i (g.body.toM (d i))) :
    ∃ l b', phyLocQR sp b g = .ok (l, b') ∧ AllKept d lp b0 b' ∧ Translated d lp sem b0 (lineError (d i)) (sem g) l := by
  obtain ⟨g0, gr, h1, h2, h3⟩ := hb i
  obtain ⟨l, gr', k1, k2, _, k4, k5, k6, k7⟩ := C35_physical h3.dev h3.clean hsp (i : Nat) g.body hu
  have hon := phyPassGate_on k1
  refine ⟨l.map .one, b.set i (some gr'), ?_, hb.set h2 k5 k6 (phyPassGate_same k1), ?_, ?_, ⟨1, norm_one, ?_⟩, ?_⟩
  · unfold phyLocQR onLine withGraph theGraph
    rw [ht]
    simp only [bind, Except.bind, pure, Except.pure]
    rw [graphAt_ok h2, hu.1]
    simp only
    rw [k1]
    rfl
  · rw [circuitOp_one hon]
    exact embed1_mem_unitary (X := LvOf d) i _ k7
  · rw [hsem]; exact embed1_mem_unitary (X := LvOf d) i _ hu.2.2
  · rw [circuitOp_one hon, one_smul, hsem, placed_embed1]
    exact near_embed1 (mul_nonneg (Nat.cast_nonneg _) (lineError_nonneg _)) k4
  · intro x hx
    obtain ⟨y, hy, rfl⟩ := List.mem_map.1 hx
    exact ⟨i, g0, h1, hon y hy, (k2 y hy).imp h3.coupled id⟩

/-- The levels of the line of a gate are all coupled. -/
theorem phyLocAda_ok {sp : PathFinder} (hsp : FindsShortest sp) {b0 b : Graphs} (hb : AllKept d lp b0 b) {g : Op (Arr2 ℂ)} {i : Fin n}
    (ht : g.target = .one (i : Nat)) (hu : UnitaryArr g.body (d i)) (hsem : sem g = embed1 (X := LvOf d) i (g.body.toM (d i)))
    (hc : ∀ g0, b0[(i : Nat)]? = some (some g0) → AllCoupled (d i) g0) (hd : d i ≤ 10000) (hn : NoTinyEntries (g.body.toM (d i))) :
    ∃ N l b', (∀ fuel, phyLocAda fuel sp false b g = .ok (l, b') ∨ (fuel < N ∧ phyLocAda fuel sp false b g = .error .recursion)) ∧
      AllKept d lp b0 b' ∧ Translated d lp sem b0 (adaError (d i)) (sem g) l := by
  obtain ⟨g0, gr, h1, h2, h3⟩ := hb i
  have hcr : AllCoupled (d i) gr := by
    intro x y hxy
    have := hc g0 h1 x y hxy
    unfold Spec.Joined edgeData at *
    rw [h3.same.2]; exact this
  obtain ⟨N, l, gr', k1, k2, k3, _, k5, k6, k7, k8, k9⟩ := C69_implements_partial h3.dev h3.clean hcr hsp (i : Nat) g.body hu hd hn
  have hon : ∀ x ∈ l, OnLine (i : Nat) (d i) x := Adaptive.phyAdaGate_on ((k1 N).resolve_right (by omega))
  have hl : ∀ fuel r, Adaptive.phyAdaGate fuel sp (i : Nat) (d i) false g.body (some gr) = r →
      phyLocAda fuel sp false b g = r.bind fun p => .ok (p.1.map .one, b.set i p.2) := by
    intro fuel r hr
    unfold phyLocAda onLine
    rw [ht]
    simp only [bind, Except.bind, pure, Except.pure]
    rw [graphAt_ok h2, hu.1]
    simp only
    rw [hr]
    rfl
  refine ⟨N, l.map .one, b.set i (some gr'), fun fuel => ?_, hb.set h2 k2 k3 ⟨k8, k9⟩, ?_, ?_, ⟨1, norm_one, ?_⟩, ?_⟩
  · rcases k1 fuel with k | ⟨k, k'⟩
    · exact Or.inl (hl _ _ k)
    · exact Or.inr ⟨k, hl _ _ k'⟩
  · rw [circuitOp_one hon]
    exact embed1_mem_unitary (X := LvOf d) i _ k7
  · rw [hsem]; exact embed1_mem_unitary (X := LvOf d) i _ hu.2.2
  · rw [circuitOp_one hon, one_smul, hsem, placed_embed1]
    refine near_embed1 (mul_nonneg (Nat.cast_nonneg _) (add_nonneg ?_ (by norm_num))) k6
    unfold qrError
    positivity
  · intro x hx
    obtain ⟨y, hy, rfl⟩ := List.mem_map.1 hx
    exact ⟨i, g0, h1, hon y hy, (k5 y hy).imp h3.coupled id⟩

open Complex in
theorem cexOp_unitary (phi : ℝ) : cexOp phi ∈ unitaryGroup (Fin 2) ℂ := by
  have e1 : Complex.exp (-(I * phi)) * Complex.exp (I * phi) = 1 := by rw [← Complex.exp_add, neg_add_cancel, Complex.exp_zero]
  have c1 : (starRingEnd ℂ) (Complex.exp (I * phi)) = Complex.exp (-(I * phi)) := by
    rw [← Complex.exp_conj]; simp
  have c2 : (starRingEnd ℂ) (Complex.exp (-(I * phi))) = Complex.exp (I * phi) := by
    rw [← Complex.exp_conj]; simp
  rw [mem_unitaryGroup_iff]
  ext r s
  fin_cases r <;> fin_cases s <;> simp [cexOp, Matrix.mul_apply, Fin.sum_univ_two, c1, c2, star_eq_conjTranspose]
  · linear_combination (-I * I) * e1 - I_mul_I
  · linear_combination (-I * I) * e1 - I_mul_I

theorem cex_unitary (P : EntQR.Pair) (a b : Fin P.t) (hab : a < b) (k : Fin P.c) (phi : ℝ) (q0 q1 : Int) (d0 d1 : Nat) :
    pairOp P (.cex ⟨(a : Nat), (b : Nat), (k : Nat), phi⟩ q0 q1 d0 d1 false) ∈ unitaryGroup (Fin (P.c * P.t)) ℂ := by
  rw [EntQR.pairOp_cex a b hab _ rfl rfl k rfl]
  refine EntQR.ctlAll_unitary _ fun c => ?_
  split_ifs
  · exact twoLevel_unitary _ hab.ne (cexOp_unitary phi)
  · exact one_mem _

/-- the placement of each line as it is read from the graphs -/
def ReadsPlaces (d : Fin n → Nat) (lp : ∀ i, Equiv.Perm (Fin (d i))) (b : Graphs) : Prop :=
  ∀ i : Fin n, ∃ g, b[(i : Nat)]? = some (some g) ∧ levelsOf (some g) (d i) = .ok (placementList (lp i))

theorem AllKept.reads {b0 b : Graphs} (hb : AllKept d lp b0 b) : ReadsPlaces d lp b := by
  intro i
  obtain ⟨_, g, _, h2, h3⟩ := hb i
  exact ⟨g, h2, levelsOf_ok h3.dev h3.order⟩

theorem phyEnt_cex {sp : PathFinder} {rnd : ℝ → ℝ} {other : Nat → Other} {b0 b : Graphs} (hb : ReadsPlaces d lp b) {g : Op (Arr2 ℂ)}
    (hg : GoodCEx d lp other sem g) :
    ∃ l, phyEnt sp rnd (other g.oid) b g = .ok (l, b) ∧ Translated d lp sem b0 0 (sem g) l := by
  obtain ⟨_, _, i, j, a, c, k, phi, hij, ht, hdims, hcex, hac, hp0, hp1, hord, hsem⟩ := hg
  obtain ⟨gi, i2, i3⟩ := hb i
  obtain ⟨gj, j2, j3⟩ := hb j
  obtain ⟨p, hp, hpu, hpp⟩ : ∃ p : CExParams, EntQR.phyCEx ⟨(i : Nat), (j : Nat), d i, d j⟩ (placementList (lp i)) (placementList (lp j))
      ⟨(a : Nat), (c : Nat), (k : Nat), phi⟩ false = .ok (.cex p (i : Nat) (j : Nat) (d i) (d j) false) ∧
      pairOp ⟨(i : Nat), (j : Nat), d i, d j⟩ (.cex p (i : Nat) (j : Nat) (d i) (d j) false) ∈ unitaryGroup (Fin (d i * d j)) ℂ ∧
      (pairOp ⟨(i : Nat), (j : Nat), d i, d j⟩ (.cex p (i : Nat) (j : Nat) (d i) (d j) false)).submatrix (pairPlace (lp i) (lp j)) (pairPlace (lp i) (lp j)) =
        pairOp ⟨(i : Nat), (j : Nat), d i, d j⟩ (.cex ⟨(a : Nat), (c : Nat), (k : Nat), phi⟩ (i : Nat) (j : Nat) (d i) (d j) false) := by
    rcases lt_or_gt_of_ne (fun e => hac.ne ((lp j).injective e)) with hlt | hlt
    · have e := EntQR.phyCEx_up (P := ⟨(i : Nat), (j : Nat), d i, d j⟩) (lp i) (lp j) a c k phi false hp0 hp1 hlt
      obtain ⟨h, e1, e2⟩ := C67_cex_partial (P := ⟨(i : Nat), (j : Nat), d i, d j⟩) (lp i) (lp j) a c hac k phi hp0 hp1 hlt
      have := Except.ok.inj (e.symm.trans e1)
      subst this
      exact ⟨_, e, cex_unitary ⟨(i : Nat), (j : Nat), d i, d j⟩ _ _ hlt _ _ _ _ _ _, e2⟩
    · have h0 : phi = 0 := hord.resolve_left (not_lt.2 hlt.le)
      subst h0
      have e := EntQR.phyCEx_down (P := ⟨(i : Nat), (j : Nat), d i, d j⟩) (lp i) (lp j) a c k 0 false hp0 hp1 hlt
      obtain ⟨h, e1, e2⟩ := C67_cex_reordered (P := ⟨(i : Nat), (j : Nat), d i, d j⟩) (lp i) (lp j) a c hac k 0 hp0 hp1 hlt
      have := Except.ok.inj (e.symm.trans e1)
      subst this
      rw [neg_zero] at e2
      exact ⟨_, e, cex_unitary ⟨(i : Nat), (j : Nat), d i, d j⟩ _ _ hlt _ _ _ _ _ _, e2⟩
  have hop : circuitOp (instrOp d sem) [.pair (.cex p (i : Nat) (j : Nat) (d i) (d j) false)] =
      embedPair d i j (pairOp ⟨(i : Nat), (j : Nat), d i, d j⟩ (.cex p (i : Nat) (j : Nat) (d i) (d j) false)) := by
    rw [circuitOp_cons, circuitOp_nil, one_mul]
    unfold instrOp
    simp only
    rw [lineOf_fin, lineOf_fin]
  refine ⟨[.pair (.cex p (i : Nat) (j : Nat) (d i) (d j) false)], ?_, ?_, ?_, ⟨1, norm_one, ?_⟩, ?_⟩
  · unfold phyEnt
    rw [ht, hdims, hcex]
    simp only [bind, Except.bind, pure, Except.pure, itemAt, List.getElem?_cons_zero, List.getElem?_cons_succ]
    rw [graphAt_ok i2, graphAt_ok j2]
    simp only
    rw [i3, j3]
    simp only
    rw [hp]
  · rw [hop]; exact embedPair_unitary hij hpu
  · rw [hsem]; exact embedPair_unitary hij (cex_unitary ⟨(i : Nat), (j : Nat), d i, d j⟩ _ _ hac _ _ _ _ _ _)
  · rw [hop, one_smul, hsem, placed_embedPair _ _ hpp, sub_self, norm_zero]
  · intro x hx
    rw [List.mem_singleton] at hx
    subst hx
    exact ⟨i, j, hij, rfl, rfl, rfl, rfl⟩

theorem permInit_ok {m : Nat} (f : Equiv.Perm (Fin m)) : permInit m (placementList f) = .ok (placementList f) := by
  unfold permInit
  rw [if_pos]
  rw [List.all_eq_true]
  intro k hk
  unfold placementList at hk ⊢
  obtain ⟨i, rfl⟩ := List.mem_ofFn.1 hk
  have := (f i).isLt
  simp only [List.length_ofFn, Bool.and_eq_true, decide_eq_true_eq]
  omega

theorem permArray_unitary {m : Nat} (f : Equiv.Perm (Fin m)) : UnitaryArr (permArray m (placementList f)) m := by
  refine ⟨rfl, by simp [permArray, placementList], ?_⟩
  refine perm_unitary _ f f.injective fun r c => ?_
  have : (placementList f).getD (c : Nat) 0 = ((f c : Fin m) : Nat) := by
    simp [placementList]
  simp only [Arr2.toM, permArray, this]
  congr 1
  simp [Fin.ext_iff]

theorem conjT_unitary {m : Nat} {u : Arr2 ℂ} (h : UnitaryArr u m) : UnitaryArr u.conjT m := by
  refine ⟨h.2.1, h.1, ?_⟩
  have : u.conjT.toM m = star (u.toM m) := by
    ext r c; rfl
  rw [this]
  exact Unitary.star_mem h.2.2

theorem compilePerm_ok {sp : PathFinder} (hsp : FindsPaths sp) {b0 b : Graphs} (hb : AllKept d lp b0 b) {i : Fin n} {u : Arr2 ℂ} (hu : UnitaryArr u (d i)) :
    ∃ b', compilePerm sp (i : Nat) (d i) u b = .ok b' ∧ AllKept d lp b0 b' := by
  obtain ⟨g0, gr, h1, h2, h3⟩ := hb i
  obtain ⟨l, gr', k1, _, _, _, k5, k6, _⟩ := C35_physical h3.dev h3.clean hsp (i : Nat) u hu
  refine ⟨b.set i (some gr'), ?_, hb.set h2 k5 k6 (phyPassGate_same k1)⟩
  unfold compilePerm withGraph theGraph
  simp only [bind, Except.bind, pure, Except.pure]
  rw [graphAt_ok h2]
  simp only
  rw [k1]
  rfl

/-- `E` allows that compiling the permutations raises AssertionError. -/
theorem phyEnt_pair_gen {E : Prop} {sp : PathFinder} {I : Graphs → Prop}
    (hperm : ∀ b, I b → ∀ (i : Fin n) (u : Arr2 ℂ), UnitaryArr u (d i) →
      (E ∧ compilePerm sp (i : Nat) (d i) u b = .error .assertionError) ∨ ∃ b', compilePerm sp (i : Nat) (d i) u b = .ok b' ∧ I b')
    {rnd : ℝ → ℝ} {rho : ℝ} (hrnd : ∀ x, |rnd x - x| ≤ rho) {other : Nat → Other} {b0 b : Graphs} (hI : I b) (hb : ReadsPlaces d lp b)
    {g : Op (Arr2 ℂ)} (hg : GoodPair d lp other sem g) :
    (E ∧ phyEnt sp rnd (other g.oid) b g = .error .assertionError) ∨
    ∃ l b', phyEnt sp rnd (other g.oid) b g = .ok (l, b') ∧ I b' ∧ Translated d lp sem b0 (pairError rho) (sem g) l := by
  obtain ⟨_, _, i, j, hlt, hi, hj, hli, hlj, ht, hdims, hcex, hu, hsem⟩ := hg
  obtain ⟨gi, i2, i3⟩ := hb i
  obtain ⟨gj, j2, j3⟩ := hb j
  have hrun : phyEnt sp rnd (other g.oid) b g = (do
      let b ← compilePerm sp (i : Nat) (d i) (permArray (d i) (placementList (lp i))) b
      let b ← compilePerm sp (j : Nat) (d j) (permArray (d j) (placementList (lp j))) b
      let b ← compilePerm sp (i : Nat) (d i) (permArray (d i) (placementList (lp i))).conjT b
      let b ← compilePerm sp (j : Nat) (d j) (permArray (d j) (placementList (lp j))).conjT b
      let l ← EntQR.phyOther ⟨(i : Nat), (j : Nat), d i, d j⟩ (placementList (lp i)) (placementList (lp j)) rnd g.body
      pure (l.map .pair, b)) := by
    unfold phyEnt
    rw [ht, hdims, hcex]
    simp only [bind, Except.bind, pure, Except.pure, itemAt, List.getElem?_cons_zero, List.getElem?_cons_succ]
    rw [graphAt_ok i2, graphAt_ok j2]
    simp only
    rw [i3, j3]
    simp only
    rw [permInit_ok, permInit_ok]
  rcases hperm b hI i _ (permArray_unitary (lp i)) with c1 | ⟨b1, c1, hb1⟩
  · refine Or.inl ⟨c1.1, ?_⟩
    rw [hrun, c1.2]; rfl
  rcases hperm b1 hb1 j _ (permArray_unitary (lp j)) with c2 | ⟨b2, c2, hb2⟩
  · refine Or.inl ⟨c2.1, ?_⟩
    rw [hrun, c1]
    show (compilePerm _ _ _ _ _ >>= _) = _
    rw [c2.2]; rfl
  rcases hperm b2 hb2 i _ (conjT_unitary (permArray_unitary (lp i))) with c3 | ⟨b3, c3, hb3⟩
  · refine Or.inl ⟨c3.1, ?_⟩
    rw [hrun, c1]
    show (compilePerm _ _ _ _ _ >>= _) = _
    rw [c2]
    show (compilePerm _ _ _ _ _ >>= _) = _
    rw [c3.2]; rfl
  rcases hperm b3 hb3 j _ (conjT_unitary (permArray_unitary (lp j))) with c4 | ⟨b4, c4, hb4⟩
  · refine Or.inl ⟨c4.1, ?_⟩
    rw [hrun, c1]
    show (compilePerm _ _ _ _ _ >>= _) = _
    rw [c2]
    show (compilePerm _ _ _ _ _ >>= _) = _
    rw [c3]
    show (compilePerm _ _ _ _ _ >>= _) = _
    rw [c4.2]; rfl
  obtain ⟨l, mu, e1, e2, e3, e4⟩ := C66_log_gate_partial (P := ⟨(i : Nat), (j : Nat), d i, d j⟩) (by simpa using hlt) hi hj rnd hrnd g.body hu
  have hrho : 0 ≤ rho := (abs_nonneg _).trans (hrnd 0)
  refine Or.inr ⟨l.map .pair, b4, ?_, hb4, ?_, ?_, ⟨Complex.exp (-Complex.I * mu), ?_, ?_⟩, ?_⟩
  · rw [hrun]
    simp only [bind, Except.bind, pure, Except.pure]
    rw [c1]; simp only
    rw [c2]; simp only
    rw [c3]; simp only
    rw [c4]; simp only
    have e5 : EntQR.phyOther ⟨(i : Nat), (j : Nat), d i, d j⟩ (placementList (lp i)) (placementList (lp j)) rnd g.body = .ok l := e1
    rw [e5]
  · rw [circuitOp_pair hlt.ne e2]; exact embedPair_unitary hlt.ne e4
  · rw [hsem]; exact embedPair_unitary hlt.ne hu.2.2
  · rw [show -Complex.I * mu = ((-mu : ℝ) : ℂ) * Complex.I by push_cast; ring]
    exact Complex.norm_exp_ofReal_mul_I _
  · have hpl : placed lp (embedPair d i j (g.body.toM (d i * d j))) = embedPair d i j (g.body.toM (d i * d j)) := by
      refine placed_embedPair _ _ ?_
      rw [hli, hlj]
      ext x y
      simp [pairPlace]
    rw [circuitOp_pair hlt.ne e2, hsem, hpl, ← embedPair_smul]
    have h4 : d i * d j = 4 := by rw [hi, hj]
    refine (near_embedPair hlt.ne (mul_nonneg (Nat.cast_nonneg _) (add_nonneg (lineError_nonneg _) hrho)) e3).trans ?_
    rw [h4]
    unfold pairError
    norm_num
  · intro x hx
    obtain ⟨y, hy, rfl⟩ := List.mem_map.1 hx
    have h := e2 y hy
    cases y with
    | one k line dim b =>
      rcases h with ⟨rfl, rfl⟩ | ⟨rfl, rfl⟩
      · exact ⟨i, rfl, rfl⟩
      · exact ⟨j, rfl, rfl⟩
    | cex g q0 q1 d0 d1 b =>
      obtain ⟨_, rfl, rfl, rfl, rfl⟩ := h
      exact ⟨i, j, hlt.ne, rfl, rfl, rfl, rfl⟩

theorem phyEnt_pair {sp : PathFinder} (hsp : FindsPaths sp) {rnd : ℝ → ℝ} {rho : ℝ} (hrnd : ∀ x, |rnd x - x| ≤ rho) {other : Nat → Other} {b0 b : Graphs}
    (hb : AllKept d lp b0 b) {g : Op (Arr2 ℂ)} (hg : GoodPair d lp other sem g) :
    ∃ l b', phyEnt sp rnd (other g.oid) b g = .ok (l, b') ∧ AllKept d lp b0 b' ∧ Translated d lp sem b0 (pairError rho) (sem g) l :=
  (phyEnt_pair_gen (E := False) (I := AllKept d lp b0) (fun _ h _ _ hu => Or.inr (compilePerm_ok hsp h hu)) hrnd hb hb.reads hg).resolve_left fun h => h.1

theorem kept_multi {other : Nat → Other} {b0 : Graphs} {g : Op (Arr2 ℂ)} (hg : GoodMulti d lp other sem g) (ha : ActsOn d g.target.lines (sem g)) :
    Translated d lp sem b0 0 (sem g) [.kept g] := by
  obtain ⟨h1, _, _, h3, h4⟩ := hg
  have e : circuitOp (instrOp d sem) [.kept g] = sem g := by
    rw [circuitOp_cons, circuitOp_nil, one_mul]; rfl
  refine ⟨by rw [e]; exact h3, h3, ⟨1, norm_one, ?_⟩, ?_⟩
  · obtain ⟨A, hA⟩ := ha
    rw [e, one_smul, hA, placed_embed, sub_self, norm_zero]
    intro i hi
    refine h4 i ?_
    simpa [lineSet, Touches] using hi
  · intro x hx
    rw [List.mem_singleton] at hx
    subst hx
    exact h1

end Qudits.Compiler
