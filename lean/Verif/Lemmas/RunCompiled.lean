import Verif.Model.RunCompiled
import Verif.Spec.RunSpec
import Verif.Lemmas.Misim
import Verif.Lemmas.TwoLine
import Verif.Lemmas.OpNorm
import Verif.Lemmas.CompilerGates
/- The gate objects behind the instructions of a compiled circuit, as a simulator sees them. -/
namespace Qudits.Compiler
open Spec Matrix EntQR DD

variable {n : Nat} {d : Fin n → Nat}

/-! ### the sizes of the arrays -/

theorem set_size {A B : Arr2 ℂ} {i j : Nat} {v : ℂ} (h : A.set i j v = .ok B) : B.rows = A.rows ∧ B.cols = A.cols := by
  unfold Arr2.set at h
  split at h
  · cases h; exact ⟨rfl, rfl⟩
  · cases h

theorem add_size {A B C : Arr2 ℂ} (h : A.add B = .ok C) : C.rows = A.rows ∧ C.cols = A.cols := by
  unfold Arr2.add at h
  split at h
  · cases h; exact ⟨rfl, rfl⟩
  · cases h

theorem matmul_size {A B C : Arr2 ℂ} (h : A.matmul B = .ok C) : C.rows = A.rows ∧ C.cols = B.cols := by
  unfold Arr2.matmul at h
  split at h
  · cases h; exact ⟨rfl, rfl⟩
  · cases h

theorem rArray_size {m : Nat} {g : TwoLevel} {A : Arr2 ℂ} (h : rArray m g = .ok A) : A.rows = m ∧ A.cols = m := by
  unfold rArray at h
  obtain ⟨m1, h1, h⟩ := bind_ok h
  obtain ⟨m2, h2, h⟩ := bind_ok h
  obtain ⟨_, _, h⟩ := bind_ok h
  obtain ⟨_, _, h⟩ := bind_ok h
  obtain ⟨_, _, h⟩ := bind_ok h
  have e1 := set_size h1
  have e2 := set_size h2
  have e3 := add_size h
  exact ⟨e3.1.trans (e2.1.trans e1.1), e3.2.trans (e2.2.trans e1.2)⟩

theorem virtRzArray_size {m : Nat} {g : TwoLevel} {A : Arr2 ℂ} (h : virtRzArray m g = .ok A) : A.rows = m ∧ A.cols = m := set_size h

theorem rzArray_size {m : Nat} {g : TwoLevel} {A : Arr2 ℂ} (h : rzArray m g = .ok A) : A.rows = m ∧ A.cols = m := by
  unfold rzArray at h
  obtain ⟨_, _, h⟩ := bind_ok h
  obtain ⟨_, h1, h⟩ := bind_ok h
  obtain ⟨_, _, h⟩ := bind_ok h
  obtain ⟨_, h2, h⟩ := bind_ok h
  obtain ⟨_, _, h⟩ := bind_ok h
  obtain ⟨_, h3, h⟩ := bind_ok h
  obtain ⟨_, h4, h⟩ := bind_ok h
  have e1 := matmul_size h
  have e2 := matmul_size h4
  exact ⟨e1.1.trans (e2.1.trans (rArray_size h3).1), e1.2.trans (rArray_size h1).2⟩

theorem rhArray_size {m : Nat} {g : TwoLevel} {A : Arr2 ℂ} (h : rhArray m g = .ok A) : A.rows = m ∧ A.cols = m := by
  unfold rhArray at h
  obtain ⟨_, _, h⟩ := bind_ok h
  obtain ⟨_, h1, h⟩ := bind_ok h
  obtain ⟨_, _, h⟩ := bind_ok h
  obtain ⟨_, h2, h⟩ := bind_ok h
  have e1 := matmul_size h
  exact ⟨e1.1.trans (rArray_size h1).1, e1.2.trans (rArray_size h2).2⟩

theorem kind_size {m : Nat} {k : OneKind} {A : Arr2 ℂ} (h : k.array m = .ok A) : A.rows = m ∧ A.cols = m := by
  cases k
  · exact rArray_size h
  · exact rzArray_size h
  · exact rhArray_size h
  · exact virtRzArray_size h

theorem cexOpArray_size {m : Nat} {g : CExParams} {A : Arr2 ℂ} (h : cexOpArray m g = .ok A) : A.rows = m ∧ A.cols = m := by
  unfold cexOpArray at h
  obtain ⟨_, h1, h⟩ := bind_ok h
  obtain ⟨_, h2, h⟩ := bind_ok h
  obtain ⟨_, h3, h⟩ := bind_ok h
  have e1 := set_size h1
  have e2 := set_size h2
  have e3 := set_size h3
  have e4 := set_size h
  exact ⟨e4.1.trans (e3.1.trans (e2.1.trans e1.1)), e4.2.trans (e3.2.trans (e2.2.trans e1.2))⟩

/-- the array of a controlled exchange, whatever its levels are -/
theorem cexArray_of_op {q0 q1 : Int} {d0 d1 : Nat} {g : CExParams} {B : Arr2 ℂ} (hB : cexOpArray d1 g = .ok B) :
    ∃ A, cexArray q0 q1 d0 d1 g = .ok A ∧ A.rows = d0 * d1 ∧ A.cols = d0 * d1 ∧
      ∀ i j r s, i < d0 → j < d0 → r < d1 → s < d1 →
        (if q0 < q1 then A.at' (i * d1 + r) (j * d1 + s) else A.at' (r * d0 + i) (s * d0 + j)) =
          if i = j then (if (i : Int) = g.ctrl then B else Arr2.identity d1).at' r s else 0 := by
  obtain ⟨b1, b2⟩ := cexOpArray_size hB
  obtain ⟨A, hA, h1, h2, h3⟩ := ctl_acc (c := d0) (t := d1) (decide (q0 < q1)) (fun i => do
      let v ← fromDiracToBasis [i] [d0]
      let mapmat := outer v v
      let op ← if (i : Int) = g.ctrl then cexOpArray d1 g else pure (Arr2.identity d1)
      pure (if q0 < q1 then mapmat.kron op else op.kron mapmat))
    (fun i => if (i : Int) = g.ctrl then B else Arr2.identity d1)
    (fun k hk => by
      simp only [dirac_one hk]
      by_cases hk' : (k : Int) = g.ctrl
      · simp only [if_pos hk', hB]
        simp [bind, Except.bind, pure, Except.pure]
      · simp only [if_neg hk']
        simp [bind, Except.bind, pure, Except.pure])
    (fun k _ => by split_ifs <;> simp [b1, b2, Arr2.identity])
  refine ⟨A, hA, h1, h2, ?_⟩
  intro i j r s hi hj hr hs
  have := h3 i j r s hi hj hr hs
  simp only [decide_eq_true_eq] at this
  exact this

/-! ### objects -/

theorem made_of_init {t : Target} {ts : List (Fin n)} (hne : ts ≠ []) (ht : t.lines = ts.map fun i : Fin n => ((i : Nat) : Int)) (name : String)
    (b : Bool) : ∃ g, Gate.init (List.ofFn d) name (typeFor ts.length) t none = .ok g ∧ Made d (marked b g) t ts ∧ (marked b g).dagger = b := by
  have hl : ∃ g, Gate.init (List.ofFn d) name (typeFor ts.length) t none = .ok g ∧ g.dagger = false := by
    unfold Gate.init Gate.checkLongRange Gate.referenceLines Gate.controlLines
    simp only [bind, Except.bind, pure, Except.pure, List.nil_append]
    have hlen : ¬ t.lines.length = 0 := by
      rw [ht, List.length_map]
      exact fun h => hne (List.length_eq_zero_iff.1 h)
    rw [if_neg hlen]
    simp only
    by_cases h1 : t.lines.length > 1
    · simp only [h1, if_true]
      exact ⟨_, rfl, rfl⟩
    · simp only [h1, if_false]
      exact ⟨_, rfl, rfl⟩
  obtain ⟨g, hg, hd⟩ := hl
  refine ⟨g, hg, ⟨ht, name, g, if b then 1 else 0, hg, ?_⟩, ?_⟩
  · cases b <;> rfl
  · cases b
    · exact hd
    · rfl

theorem made_one (i : Fin n) (b : Bool) (A : Arr2 ℂ) (hr : A.rows = d i) (hc : A.cols = d i) :
    ∃ g, Gate.init (List.ofFn d) "" .single (.one ((i : Nat) : Int)) none = .ok g ∧ (∃ ls, Flagged d (marked b g) ls) ∧
      HasOperator d (marked b g) A (embed1 (X := LvOf d) i (adjIf b (A.toM (d i)))) := by
  obtain ⟨g, h1, h2, h3⟩ := made_of_init (d := d) (t := .one ((i : Nat) : Int)) (ts := [i]) (by simp) rfl "" b
  obtain ⟨k1, _, _, k4⟩ := made_ok d (marked b g) _ [i] h2 A (by simp) (by simp) (by simpa using hr) (by simpa using hc)
  refine ⟨g, h1, ⟨_, k1⟩, ?_⟩
  rw [h3, embed_single] at k4
  unfold adjIf
  cases b
  · exact k4
  · rw [if_pos rfl] at k4 ⊢
    rw [← embed1_conjTranspose]
    exact k4

theorem pair_embed {i j : Fin n} (hij : i ≠ j) (A : Arr2 ℂ) (hr : A.rows = d i * d j) (hc : A.cols = d i * d j) (x y : Reg d) :
    embed [i, j].toFinset (onLines d [i, j].toFinset A.at') x y =
      if ∀ k, k ≠ i → k ≠ j → x k = y k then
        (if i < j then A.at' (x i * d j + x j) (y i * d j + y j) else A.at' (x j * d i + x i) (y j * d i + y i)) else 0 := by
  obtain ⟨g, h1, h2, h3⟩ := made_of_init (d := d) (t := .many [((i : Nat) : Int), ((j : Nat) : Int)]) (ts := [i, j]) (by simp) rfl "" false
  have hp : ∏ k ∈ [i, j].toFinset, d k = d i * d j := by simp [hij]
  obtain ⟨k1, k2, k3, B, b1, b2, b3, b4⟩ := made_ok d g _ [i, j] h2 A (by simp) (by simp [hij]) (by rw [hp, hr]) (by rw [hp, hc])
  obtain ⟨B', c1, c2, c3, c4⟩ := pair_register d g i j hij A k1.dims k2 k3 h3 hr hc
  rw [b1] at c1
  cases c1
  have h3 : g.dagger = false := h3
  rw [← c4, b4, h3]
  rfl

theorem made_cex {i j : Fin n} (hij : i ≠ j) (b : Bool) (p : CExParams) {B : Arr2 ℂ} (hB : cexOpArray (d j) p = .ok B) :
    ∃ g A, Gate.init (List.ofFn d) "CEx" .two (.many [((i : Nat) : Int), ((j : Nat) : Int)]) none = .ok g ∧
      cexArray (i : Nat) (j : Nat) (d i) (d j) p = .ok A ∧ (∃ ls, Flagged d (marked b g) ls) ∧
      HasOperator d (marked b g) A (embedPair d i j (pairOp ⟨(i : Nat), (j : Nat), d i, d j⟩ (.cex p (i : Nat) (j : Nat) (d i) (d j) b))) := by
  obtain ⟨A, a1, a2, a3, a4⟩ := cexArray_of_op (q0 := ((i : Nat) : Int)) (q1 := ((j : Nat) : Int)) (d0 := d i) hB
  obtain ⟨g, h1, h2, h3⟩ := made_of_init (d := d) (t := .many [((i : Nat) : Int), ((j : Nat) : Int)]) (ts := [i, j]) (by simp) rfl "CEx" b
  have hp : ∏ k ∈ [i, j].toFinset, d k = d i * d j := by simp [hij]
  obtain ⟨k1, _, _, k4⟩ := made_ok d (marked b g) _ [i, j] h2 A (by simp) (by simp [hij]) (by rw [hp, a2]) (by rw [hp, a3])
  refine ⟨g, A, h1, a1, ⟨_, k1⟩, ?_⟩
  have key : embed [i, j].toFinset (onLines d [i, j].toFinset A.at') = embedPair d i j (ifFirst (d i) p.ctrl (B.toM (d j))) := by
    funext x y
    rw [pair_embed hij A a2 a3]
    unfold embedPair
    refine if_congr Iff.rfl ?_ rfl
    have := a4 (x i) (y i) (x j) (y j) (x i).2 (y i).2 (x j).2 (y j).2
    have e : (((i : Nat) : Int) < ((j : Nat) : Int)) ↔ i < j := by
      rw [Fin.lt_def]; exact Int.ofNat_lt
    simp only [e] at this
    rw [this]
    unfold ifFirst
    have e1 : ∀ z : Reg d, (finProdFinEquiv (z i, z j) : Fin (d i * d j)).divNat = z i := fun z => by
      have := congrArg Prod.fst (finProdFinEquiv.symm_apply_apply (z i, z j))
      exact this
    have e2 : ∀ z : Reg d, (finProdFinEquiv (z i, z j) : Fin (d i * d j)).modNat = z j := fun z => by
      have := congrArg Prod.snd (finProdFinEquiv.symm_apply_apply (z i, z j))
      exact this
    rw [e1, e1, e2, e2]
    refine if_congr Fin.ext_iff.symm ?_ rfl
    split_ifs
    · rfl
    · simp only [Arr2.identity, Matrix.one_apply, Fin.ext_iff]
  rw [h3, key] at k4
  have hpo : pairOp ⟨(i : Nat), (j : Nat), d i, d j⟩ (.cex p (i : Nat) (j : Nat) (d i) (d j) b) = adjIf b (ifFirst (d i) p.ctrl (B.toM (d j))) := by
    unfold pairOp
    simp only
    rw [hB]
  rw [hpo]
  unfold adjIf
  cases b
  · exact k4
  · rw [if_pos rfl] at k4 ⊢
    rw [← embedPair_conjTranspose]
    exact k4

variable {sem : Op (Arr2 ℂ) → Matrix (Reg d) (Reg d) ℂ} {obj : Nat → Gate × Arr2 ℂ}

theorem object_ok {b : Graphs} {x : CInstr} (hk : ∀ g, x = .kept g → (∃ ls, Flagged d (obj g.oid).1 ls) ∧
      HasOperator d (obj g.oid).1 (obj g.oid).2 (sem g)) (hn : Native d b x) (h0 : instrOp d sem x ≠ 0) :
    ∃ op, objectOf (List.ofFn d) obj x = .ok op ∧ (∃ ls, Flagged d op.1 ls) ∧ HasOperator d op.1 op.2 (instrOp d sem x) := by
  cases x with
  | kept g => exact ⟨_, rfl, hk g rfl⟩
  | one x =>
    obtain ⟨i, gr, _, ⟨ht, hd, hc⟩, hkind⟩ := hn
    have hop : instrOp d sem (.one x) = embed1 (X := LvOf d) i (PhasePass.lineOp (d i) x) := by
      unfold instrOp
      simp only
      rw [ht]
      simp only
      rw [lineOf_fin]
    rw [hop] at h0 ⊢
    have hA : ∃ A, PhasePass.arrayOf x = some (.ok A) ∧ A.rows = d i ∧ A.cols = d i := by
      have : PhasePass.lineOp (d i) x ≠ 0 := fun h => h0 (by rw [h]; funext x y; simp [embed1])
      unfold PhasePass.lineOp at this
      rcases hkind with ⟨p, _, hx, _⟩ | ⟨p, hx⟩
      · have hA : PhasePass.arrayOf x = some (rArray (d i) p) := by unfold PhasePass.arrayOf; rw [hx, hd]
        rw [hA] at this ⊢
        cases hr : rArray (d i) p with
        | error e => rw [hr] at this; exact absurd rfl this
        | ok A => exact ⟨A, rfl, rArray_size hr⟩
      · have hA : PhasePass.arrayOf x = some (virtRzArray (d i) p) := by unfold PhasePass.arrayOf; rw [hx, hd]
        rw [hA] at this ⊢
        cases hr : virtRzArray (d i) p with
        | error e => rw [hr] at this; exact absurd rfl this
        | ok A => exact ⟨A, rfl, virtRzArray_size hr⟩
    obtain ⟨A, hA, hr, hcs⟩ := hA
    obtain ⟨g, g1, g2, g3⟩ := made_one (d := d) i x.dagger A hr hcs
    refine ⟨(marked x.dagger g, A), ?_, g2, ?_⟩
    · unfold objectOf
      simp only
      rw [hA, ht, hc]
      simp only
      rw [g1]
      rfl
    · have : PhasePass.lineOp (d i) x = adjIf x.dagger (A.toM (d i)) := by
        unfold PhasePass.lineOp
        rw [hA]
        rfl
      rw [this]
      exact g3
  | pair e =>
    cases e with
    | one k q dim bb =>
      obtain ⟨i, rfl, rfl⟩ := hn
      have hop : ∀ A, k.array (d i) = .ok A → instrOp d sem (.pair (.one k (i : Nat) (d i) bb)) = embed1 (X := LvOf d) i (adjIf bb (A.toM (d i))) := by
        intro A hA
        unfold instrOp
        simp only
        rw [lineOf_fin, hA]
      cases hA : k.array (d i) with
      | error e =>
        exfalso
        apply h0
        unfold instrOp
        simp only
        rw [lineOf_fin, hA]
      | ok A =>
        obtain ⟨hr, hcs⟩ := kind_size hA
        obtain ⟨g, g1, g2, g3⟩ := made_one (d := d) i bb A hr hcs
        rw [hop A hA]
        refine ⟨(marked bb g, A), ?_, g2, g3⟩
        unfold objectOf
        simp only
        rw [g1, hA]
        rfl
    | cex p q0 q1 d0 d1 bb =>
      obtain ⟨i, j, hij, rfl, rfl, rfl, rfl⟩ := hn
      have hop : instrOp d sem (.pair (.cex p (i : Nat) (j : Nat) (d i) (d j) bb)) =
          embedPair d i j (pairOp ⟨(i : Nat), (j : Nat), d i, d j⟩ (.cex p (i : Nat) (j : Nat) (d i) (d j) bb)) := by
        unfold instrOp
        simp only
        rw [lineOf_fin, lineOf_fin]
      rw [hop] at h0 ⊢
      cases hB : cexOpArray (d j) p with
      | error e =>
        exfalso
        apply h0
        have : pairOp ⟨(i : Nat), (j : Nat), d i, d j⟩ (.cex p (i : Nat) (j : Nat) (d i) (d j) bb) = 0 := by
          unfold pairOp
          simp only
          rw [hB]
        rw [this]
        exact embedPair_zero
      | ok B =>
        obtain ⟨g, A, g1, g2, g3, g4⟩ := made_cex (d := d) hij bb p hB
        refine ⟨(marked bb g, A), ?_, g3, g4⟩
        unfold objectOf
        simp only
        rw [g1, g2]
        rfl

theorem circuitOp_zero {l : List CInstr} {x : CInstr} (hx : x ∈ l) (h : instrOp d sem x = 0) : circuitOp (instrOp d sem) l = 0 := by
  induction l with
  | nil => simp at hx
  | cons y l ih =>
    rw [circuitOp_cons]
    rcases List.mem_cons.1 hx with rfl | hx
    · rw [h, mul_zero]
    · rw [ih hx, zero_mul]

theorem objects_ok {b : Graphs} {gs : List (Op (Arr2 ℂ))} (hpos : ∀ i, 0 < d i) (hobj : Objects d sem obj gs) (l : List CInstr)
    (hn : ∀ x ∈ l, Native d b x) (hk : ∀ g, .kept g ∈ l → g ∈ gs) (hu : circuitOp (instrOp d sem) l ∈ unitaryGroup (Reg d) ℂ) :
    ∃ ops, l.mapM (objectOf (List.ofFn d) obj) = .ok ops ∧
      List.Forall₂ (fun op M => (∃ ls, Flagged d op.1 ls) ∧ HasOperator d op.1 op.2 M) ops (l.map (instrOp d sem)) := by
  have h0 : ∀ x ∈ l, instrOp d sem x ≠ 0 := by
    intro x hx h
    have := mem_unitaryGroup_iff.1 hu
    rw [circuitOp_zero hx h, zero_mul] at this
    have e := congrFun (congrFun this (fun i => ⟨0, hpos i⟩)) (fun i => ⟨0, hpos i⟩)
    rw [one_apply_eq] at e
    exact zero_ne_one e
  clear hu
  induction l with
  | nil => exact ⟨[], rfl, List.Forall₂.nil⟩
  | cons x l ih =>
    obtain ⟨op, h1, h2⟩ := object_ok (obj := obj) (fun g hg => hobj g (hk g (by rw [hg]; exact List.mem_cons_self))) (hn x List.mem_cons_self)
      (h0 x List.mem_cons_self)
    obtain ⟨ops, h3, h4⟩ := ih (fun y hy => hn y (List.mem_cons_of_mem _ hy)) (fun g hg => hk g (List.mem_cons_of_mem _ hg))
      (fun y hy => h0 y (List.mem_cons_of_mem _ hy))
    refine ⟨op :: ops, ?_, List.Forall₂.cons h2 h4⟩
    rw [List.mapM_cons, h1]
    simp only [bind, Except.bind]
    rw [h3]
    rfl

/-! ### gates that are kept -/

theorem onLine_kept {f : Int → Nat → Arr2 ℂ → Option LGraph → Except PyErr (List PInstr × Option LGraph)} {b : Graphs} {g : Op (Arr2 ℂ)}
    {l : List CInstr} {b' : Graphs} (h : onLine f b g = .ok (l, b')) (x : Op (Arr2 ℂ)) : .kept x ∉ l := by
  unfold onLine at h
  cases ht : g.target with
  | many _ => rw [ht] at h; cases h
  | one q =>
    rw [ht] at h
    obtain ⟨_, _, h⟩ := bind_ok h
    obtain ⟨⟨_, _⟩, _, h⟩ := bind_ok h
    cases h
    simp

theorem phyEnt_kept {sp : LGraph.PathFinder} {rnd : ℝ → ℝ} {o : Other} {b : Graphs} {g : Op (Arr2 ℂ)}
    {l : List CInstr} {b' : Graphs} (h : phyEnt sp rnd o b g = .ok (l, b')) (x : Op (Arr2 ℂ)) : .kept x ∉ l := by
  unfold phyEnt at h
  cases ht : g.target with
  | one _ => rw [ht] at h; cases h
  | many qs =>
    rw [ht] at h
    obtain ⟨_, _, h⟩ := bind_ok h
    obtain ⟨_, _, h⟩ := bind_ok h
    obtain ⟨_, _, h⟩ := bind_ok h
    obtain ⟨_, _, h⟩ := bind_ok h
    obtain ⟨_, _, h⟩ := bind_ok h
    obtain ⟨_, _, h⟩ := bind_ok h
    obtain ⟨_, _, h⟩ := bind_ok h
    obtain ⟨_, _, h⟩ := bind_ok h
    cases hc : o.cex with
    | some pd =>
      rw [hc] at h
      obtain ⟨_, _, h⟩ := bind_ok h
      cases h
      simp
    | none =>
      rw [hc] at h
      obtain ⟨_, _, h⟩ := bind_ok h
      obtain ⟨_, _, h⟩ := bind_ok h
      obtain ⟨_, _, h⟩ := bind_ok h
      obtain ⟨_, _, h⟩ := bind_ok h
      obtain ⟨_, _, h⟩ := bind_ok h
      obtain ⟨_, _, h⟩ := bind_ok h
      obtain ⟨_, _, h⟩ := bind_ok h
      cases h
      simp

theorem logEnt_kept {rnd : ℝ → ℝ} {o : Other} {b : Graphs} {g : Op (Arr2 ℂ)}
    {l : List CInstr} {b' : Graphs} (h : logEnt rnd o b g = .ok (l, b')) (x : Op (Arr2 ℂ)) : .kept x ∉ l := by
  unfold logEnt at h
  cases ht : g.target with
  | one _ => rw [ht] at h; cases h
  | many qs =>
    rw [ht] at h
    obtain ⟨_, _, h⟩ := bind_ok h
    obtain ⟨_, _, h⟩ := bind_ok h
    obtain ⟨_, _, h⟩ := bind_ok h
    obtain ⟨_, _, h⟩ := bind_ok h
    obtain ⟨_, _, h⟩ := bind_ok h
    cases h
    simp

theorem transpileGate_kept {fuel : Nat} {sp : LGraph.PathFinder} {rnd : ℝ → ℝ} {other : Nat → Other} {c : PassClass} {b : Graphs} {g : Op (Arr2 ℂ)}
    {l : List CInstr} {b' : Graphs} (h : transpileGate fuel sp rnd other c b g = .ok (l, b')) (x : Op (Arr2 ℂ)) (hx : .kept x ∈ l) : x = g := by
  cases c with
  | phyLocQR => exact absurd hx (onLine_kept h x)
  | phyLocAda =>
    unfold transpileGate phyLocAda at h
    exact absurd hx (onLine_kept h x)
  | logLocQR => exact absurd hx (onLine_kept h x)
  | zPropagation => cases h; simpa using hx
  | zRemoval => cases h; simpa using hx
  | logEntQR => exact absurd hx (logEnt_kept h x)
  | phyEntQR => exact absurd hx (phyEnt_kept h x)
  | locResynth => cases h

theorem compileGate_kept {fuel : Nat} {sp : LGraph.PathFinder} {rnd : ℝ → ℝ} {other : Nat → Other} {s : Slots} {b : Graphs} {g : Op (Arr2 ℂ)}
    {l : List CInstr} {b' : Graphs} (h : compileGate (transpileGate fuel sp rnd other) other s b g = .ok (l, b')) (x : Op (Arr2 ℂ))
    (hx : .kept x ∈ l) : x = g := by
  unfold compileGate at h
  split at h
  · exact transpileGate_kept h x hx
  · cases h; simpa using hx

theorem collect_kept {f : Graphs → Op (Arr2 ℂ) → Except PyErr (List CInstr × Graphs)}
    (hf : ∀ b g l b', f b g = .ok (l, b') → ∀ x, .kept x ∈ l → x = g) (gs : List (Op (Arr2 ℂ))) :
    ∀ (b : Graphs) (l : List CInstr) (b' : Graphs), collect f b gs = .ok (l, b') → ∀ x, .kept x ∈ l → x ∈ gs := by
  induction gs with
  | nil => intro b l b' h x hx; cases h; simp at hx
  | cons g gs ih =>
    intro b l b' h x hx
    unfold collect at h
    obtain ⟨⟨l1, b1⟩, h1, h⟩ := bind_ok h
    obtain ⟨⟨l2, b2⟩, h2, h⟩ := bind_ok h
    cases h
    rcases List.mem_append.1 hx with hx | hx
    · rw [hf _ _ _ _ h1 x hx]; exact List.mem_cons_self
    · exact List.mem_cons_of_mem _ (ih _ _ _ h2 x hx)

theorem compileO0_kept {fuel : Nat} {sp : LGraph.PathFinder} {rnd : ℝ → ℝ} {other : Nat → Other} {b : Graphs} {c : Circuit} {r : Compiled}
    (h : compileO0 fuel sp rnd other b c = .ok r) (x : Op (Arr2 ℂ)) (hx : .kept x ∈ r.gates) : x ∈ c.gates := by
  unfold compileO0 at h
  obtain ⟨r0, h0, h⟩ := bind_ok h
  unfold finish at h
  obtain ⟨_, _, h⟩ := bind_ok h
  cases h
  unfold compile compileWith at h0
  obtain ⟨s, _, h0⟩ := bind_ok h0
  obtain ⟨⟨l, b1⟩, h1, h0⟩ := bind_ok h0
  unfold finish at h0
  obtain ⟨_, _, h0⟩ := bind_ok h0
  cases h0
  exact collect_kept (fun _ _ _ _ h => compileGate_kept h) _ _ _ _ h1 x hx

theorem gateO1_kept {sp : LGraph.PathFinder} {rnd : ℝ → ℝ} {other : Nat → Other} {b : Graphs} {g : Op (Arr2 ℂ)} {l : List CInstr} {b' : Graphs}
    (h : gateO1 sp rnd other b g = .ok (l, b')) (x : Op (Arr2 ℂ)) : .kept x ∉ l := by
  unfold gateO1 at h
  split at h
  · exact onLine_kept h x
  · exact phyEnt_kept h x

theorem gateO2_kept {fuel : Nat} {sp : LGraph.PathFinder} {rnd : ℝ → ℝ} {other : Nat → Other} {view : PyDict Int (List (List (LaneItem (Arr2 ℂ))))}
    {b : Graphs} {g : Op (Arr2 ℂ)} {l : List CInstr} {b' : Graphs}
    (h : gateO2 fuel sp rnd other view b g = .ok (l, b')) (x : Op (Arr2 ℂ)) : .kept x ∉ l := by
  unfold gateO2 at h
  split at h
  · obtain ⟨_, _, h⟩ := bind_ok h
    exact onLine_kept h x
  · exact phyEnt_kept h x

theorem collect_none {f : Graphs → Op (Arr2 ℂ) → Except PyErr (List CInstr × Graphs)}
    (hf : ∀ b g l b', f b g = .ok (l, b') → ∀ x, CInstr.kept x ∉ l) (gs : List (Op (Arr2 ℂ))) :
    ∀ (b : Graphs) (l : List CInstr) (b' : Graphs), collect f b gs = .ok (l, b') → ∀ x, CInstr.kept x ∉ l := by
  induction gs with
  | nil => intro b l b' h x; cases h; simp
  | cons g gs ih =>
    intro b l b' h x hx
    unfold collect at h
    obtain ⟨⟨l1, b1⟩, h1, h⟩ := bind_ok h
    obtain ⟨⟨l2, b2⟩, h2, h⟩ := bind_ok h
    cases h
    rcases List.mem_append.1 hx with hx | hx
    · exact hf _ _ _ _ h1 x hx
    · exact ih _ _ _ h2 x hx

theorem compileO1_kept {sp : LGraph.PathFinder} {rnd : ℝ → ℝ} {other : Nat → Other} {next : Nat} {b : Graphs} {c : Circuit} {r : Compiled}
    (h : compileO1 sp rnd other next b c = .ok r) (x : Op (Arr2 ℂ)) : .kept x ∉ r.gates := by
  unfold compileO1 at h
  obtain ⟨_, _, h⟩ := bind_ok h
  obtain ⟨⟨l, b1⟩, h1, h⟩ := bind_ok h
  unfold finish at h
  obtain ⟨_, _, h⟩ := bind_ok h
  cases h
  exact collect_none (fun _ _ _ _ h => gateO1_kept h) _ _ _ _ h1 x

theorem compileO2_kept {fuel : Nat} {sp : LGraph.PathFinder} {rnd : ℝ → ℝ} {other : Nat → Other} {b : Graphs} {c : Circuit} {r : Compiled}
    (h : compileO2 fuel sp rnd other b c = .ok r) (x : Op (Arr2 ℂ)) : .kept x ∉ r.gates := by
  unfold compileO2 at h
  obtain ⟨⟨_, _⟩, _, h⟩ := bind_ok h
  obtain ⟨⟨l, b1⟩, h1, h⟩ := bind_ok h
  unfold finish at h
  obtain ⟨_, _, h⟩ := bind_ok h
  cases h
  exact collect_none (fun _ _ _ _ h => gateO2_kept h) _ _ _ _ h1 x

end Qudits.Compiler
